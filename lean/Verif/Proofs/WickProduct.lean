import Verif.Proofs.WickRec
import Verif.Proofs.SumProd
import Mathlib.Algebra.Algebra.Rat
import Mathlib.Algebra.Module.Rat
/-! The sum over all schemes of contractions is the product of the normal products -/
namespace Wicked
namespace Wick
open NP
section
variable {Ω R B : Type} [Inhabited Ω] [DecidableEq Ω] [CommRing R] [Ring B] [Algebra R B]

/-- the parity automorphism of `B × B` -/
def par : (B × B) →ₐ[R] (B × B) where
  toFun p := (p.2, p.1)
  map_one' := rfl
  map_mul' _ _ := rfl
  map_zero' := rfl
  map_add' _ _ := rfl
  commutes' _ := rfl

/-- the operators in `B × B` -/
def dop (op : SQType → Ω → B) (m : SQType × Ω) : B × B := (op m.1 m.2, - op m.1 m.2)

/-- contraction of two operators in the vacuum -/
def kap (R : Type) [CommRing R] (hole : Ω → Bool) (m n : SQType × Ω) : R :=
  if kills hole m = true ∧ kills hole n = false ∧ m.2 = n.2 then 1 else 0

theorem car_sys {op : SQType → Ω → B} (h : IsCAR op) (hole : Ω → Bool) : Sys (R := R) (dop op) (kills hole) (kap R hole) par where
  anti := by
    rintro ⟨s, x⟩ ⟨t, y⟩ hk
    have key : op s x * op t y = -(op t y * op s x) := by
      cases s <;> cases t
      · exact h.same _ _ _
      · have hxy : y ≠ x := by rintro rfl; simp [kills] at hk
        have := h.mixed y x
        rw [if_neg hxy] at this
        exact eq_neg_of_add_eq_zero_right this
      · have hxy : x ≠ y := by rintro rfl; simp [kills] at hk
        have := h.mixed x y
        rw [if_neg hxy] at this
        exact eq_neg_of_add_eq_zero_left this
      · exact h.same _ _ _
    unfold dop
    apply Prod.ext
    · simpa using key
    · simpa using key
  mixed := by
    rintro ⟨s, x⟩ ⟨t, y⟩ h1 h2
    have key : op s x * op t y + op t y * op s x = if x = y then 1 else 0 := by
      cases s <;> cases t
      · have hxy : x ≠ y := by rintro rfl; simp [kills] at h1 h2; rw [h1] at h2; cases h2
        rw [if_neg hxy, h.same]; simp
      · rw [add_comm, h.mixed]; simp only [eq_comm]
      · exact h.mixed _ _
      · have hxy : x ≠ y := by rintro rfl; simp [kills] at h1 h2; rw [h1] at h2; cases h2
        rw [if_neg hxy, h.same]; simp
    have e : algebraMap R (B × B) (kap R hole (s, x) (t, y)) = ((if x = y then 1 else 0 : B), (if x = y then 1 else 0 : B)) := by
      unfold kap
      simp only [h1, h2, true_and]
      split <;> simp
    rw [e]
    unfold dop
    apply Prod.ext
    · simpa using key
    · simpa using key
  zero := by
    intro m n hmn
    unfold kap
    rw [if_neg (fun hh => hmn ⟨hh.1, hh.2.1⟩)]
  inv := fun _ => rfl
  odd := by
    intro m
    show ((- op m.1 m.2, op m.1 m.2) : B × B) = -(op m.1 m.2, - op m.1 m.2)
    simp

/-- the normal product as an explicit product -/
theorem nprod_eq {op : SQType → Ω → B} (h : IsCAR op) (hole : Ω → Bool) (l : List (SQType × Ω)) :
    nprod (R := R) (dop op) (kills hole) par l =
      (normalSign hole l : B × B) * (((l.filter (fun m => !kills hole m)).map (dop op)).prod * ((l.filter (fun m => kills hole m)).map (dop op)).prod) := by
  have hs := car_sys (R := R) h hole
  induction l with
  | nil => simp [nprod_nil, normalSign]
  | cons m l ih =>
    rw [nprod_cons, ih, normalSign]
    have hpar : ∀ l : List (SQType × Ω), par (R := R) ((l.map (dop op)).prod) = (-1) ^ l.length * (l.map (dop op)).prod := by
      intro l
      induction l with
      | nil => simp
      | cons n l ih =>
        rw [List.map_cons, List.prod_cons, map_mul, ih, hs.odd, List.length_cons, pow_succ]
        have := (Commute.neg_one_left (dop op n)).pow_left l.length
        rw [neg_mul, ← mul_assoc, ← this.eq]; simp [mul_assoc]
    cases hm : kills hole m
    · rw [wedge_false hm, List.filter_cons_of_pos (by simp [hm]), List.filter_cons_of_neg (by simp [hm]), List.map_cons, List.prod_cons,
        if_neg (by simp), one_mul, ← mul_assoc, ← (Int.cast_commute (normalSign hole l) (dop op m)).eq]
      simp only [mul_assoc]
    · rw [wedge_true hm, List.filter_cons_of_neg (by simp [hm]), List.filter_cons_of_pos hm, List.map_cons, List.prod_cons,
        if_pos rfl, map_mul, map_mul, map_intCast, hpar, hpar]
      have hcomm : ∀ l : List (SQType × Ω), (∀ n ∈ l, kills hole n = true) → (l.map (dop op)).prod * dop op m = (-1) ^ l.length * (dop op m * (l.map (dop op)).prod) := by
        intro l
        induction l with
        | nil => intro _; simp
        | cons n l ih =>
          intro hl
          rw [List.map_cons, List.prod_cons, mul_assoc, ih (fun n hn => hl n (by simp [hn])), List.length_cons, pow_succ]
          have hc := (Commute.neg_one_left (dop op n)).pow_left l.length
          rw [← mul_assoc, ← hc.eq, mul_assoc, ← mul_assoc (dop op n), hs.anti n m (by rw [hm, hl n (by simp)])]
          simp [mul_assoc]
      have h2 := hcomm (l.filter (fun m => kills hole m)) (fun n hn => by simpa using (List.mem_filter.1 hn).2)
      have e1 : l.countP (fun n => !kills hole n) = (l.filter (fun m => !kills hole m)).length := List.countP_eq_length_filter
      rw [e1]
      generalize (l.filter (fun m => !kills hole m)).length = a
      generalize (l.filter (fun m => kills hole m)).length = b at *
      generalize ((l.filter (fun m => !kills hole m)).map (dop op)).prod = P
      generalize ((l.filter (fun m => kills hole m)).map (dop op)).prod = Q at *
      push_cast
      have c1 : ∀ n : Nat, ∀ z : B × B, z * (-1) ^ n = (-1) ^ n * z := fun n z => ((Commute.neg_one_left z).pow_left n).eq.symm
      have c2 : ∀ z : B × B, z * (normalSign hole l : B × B) = (normalSign hole l : B × B) * z := fun z => (Int.cast_commute _ z).eq.symm
      calc (normalSign hole l : B × B) * ((-1) ^ a * P * ((-1) ^ b * Q)) * dop op m
          = (normalSign hole l : B × B) * (-1) ^ a * P * (-1) ^ b * (Q * dop op m) := by simp only [mul_assoc]
        _ = (normalSign hole l : B × B) * (-1) ^ a * P * ((-1) ^ b * (-1) ^ b) * (dop op m * Q) := by rw [h2]; simp only [mul_assoc]
        _ = (normalSign hole l : B × B) * (-1) ^ a * P * (dop op m * Q) := by rw [← pow_add, Even.neg_one_pow ⟨b, rfl⟩, mul_one]
        _ = _ := by rw [← c2]; simp only [mul_assoc]

theorem nprod_fst {op : SQType → Ω → B} (h : IsCAR op) (hole : Ω → Bool) (l : List (SQType × Ω)) :
    (nprod (R := R) (dop op) (kills hole) par l).1 = normalProd hole op l := by
  rw [nprod_eq h]
  unfold normalProd
  have hp : ∀ l : List (SQType × Ω), ((l.map (dop op)).prod).1 = (l.map (fun m => op m.1 m.2)).prod := by
    intro l
    induction l with
    | nil => rfl
    | cons m l ih => rw [List.map_cons, List.map_cons, List.prod_cons, List.prod_cons, Prod.fst_mul, ih]; rfl
  rw [Prod.fst_mul, Prod.fst_mul, hp, hp]
  congr 1

/-- the system with the operators as multiplications inside normal products -/
def wsys (v : OrbSystem Ω R B) (hole : Ω → Bool) : OrbSystem Ω R (Module.End R (B × B)) :=
  ⟨v.dom, v.T, fun s x => wedge (dop v.op) (kills hole) par (s, x)⟩

theorem wsys_anticommute {v : OrbSystem Ω R B} (h : IsCAR v.op) (hole : Ω → Bool) : (wsys v hole).Anticommute := by
  intro s s' x y
  exact wedge_anti (car_sys h hole) (s, x) (s', y)

theorem ops_apply (v : OrbSystem Ω R B) (hole : Ω → Bool) (l : List (SQType × Ω)) :
    (l.map (fun m => (wsys v hole).op m.1 m.2)).prod 1 = nprod (R := R) (dop v.op) (kills hole) par l := rfl

theorem value_apply {v : OrbSystem Ω R B} (h : IsCAR v.op) (hole : Ω → Bool) (t : STerm) :
    ((wsys v hole).value t 1).1 = v.normalValue hole t := by
  rw [value_sumOver]
  unfold OrbSystem.normalValue sumOver
  rw [LinearMap.sum_apply, Prod.fst_sum]
  apply Finset.sum_congr rfl
  intro σ _
  unfold OrbSystem.inst
  beta_reduce
  rw [LinearMap.smul_apply, Prod.smul_fst, ← nprod_fst (R := R) h hole, ← ops_apply, List.map_map]
  rfl

/-! ### schemes as sets of pairs -/

variable {v : OrbSystem Ω R B} {o : OSI} {hole : Ω → Bool}

theorem con_two (hvac : v.Vacuum o hole) {m : Int} {b : Finset Slot} (h : IsContraction o m b) : b.card = 2 := by
  obtain ⟨s, hs, _, h⟩ := h
  rcases h with ⟨_, c, a, rfl, h1, h2, _⟩ | ⟨_, a, c, rfl, h1, h2, _⟩ | ⟨h, _⟩
  · exact Finset.card_pair (by rintro rfl; rw [h1] at h2; cases h2)
  · exact Finset.card_pair (by rintro rfl; rw [h1] at h2; cases h2)
  · rcases hvac.kind s hs with ⟨h', _⟩ | ⟨h', _⟩ <;> rw [h] at h' <;> cases h'

/-- the value of a pair -/
def pairVal (R : Type) [CommRing R] (x : Slot → Ω) (b : Finset Slot) : R := if ∀ a ∈ b, ∀ c ∈ b, x a = x c then 1 else 0

theorem conVal_pair {C : Type} [Ring C] [Algebra R C] (u : OrbSystem Ω R C) (hvac : v.Vacuum o hole) {m : Int} {b : Finset Slot} (h : IsContraction o m b) {L : List Slot} (hn : L.Nodup)
    (hb : b ⊆ L.toFinset) (x : Slot → Ω) : conVal u o L x b = pairVal R x b := by
  obtain ⟨s, hs, hsp, h⟩ := h
  have key : ∀ c a : Slot, b = {c, a} → c.cre = true → a.cre = false → conVal u o L x b = pairVal R x b := by
    intro c a he hc ha
    subst he
    have hbl := blk_pair hn (List.mem_toFinset.1 (hb (by simp))) (List.mem_toFinset.1 (hb (by simp))) hc ha
    have h1 : creOf L {c, a} = [c] := hbl.1
    have h2 : annOf L {c, a} = [a] := hbl.2
    unfold conVal pairVal
    rw [h1, h2]
    have hcs : c.space = s := hsp c (by simp)
    dsimp only
    rw [hcs]
    have e : (∀ y ∈ ({c, a} : Finset Slot), ∀ z ∈ ({c, a} : Finset Slot), x y = x z) ↔ x c = x a := by
      constructor
      · intro h; exact h c (by simp) a (by simp)
      · intro h y hy z hz
        simp only [Finset.mem_insert, Finset.mem_singleton] at hy hz
        rcases hy with rfl | rfl <;> rcases hz with rfl | rfl <;> simp [h]
    simp only [e]
    rcases hvac.kind s hs with ⟨h', _⟩ | ⟨h', _⟩ <;> rw [h']
  rcases h with ⟨_, c, a, he, h1, h2, _⟩ | ⟨_, a, c, he, h1, h2, _⟩ | ⟨h, _⟩
  · exact key c a he h1 h2
  · rw [Finset.pair_comm] at he; exact key c a he h2 h1
  · rcases hvac.kind s hs with ⟨h', _⟩ | ⟨h', _⟩ <;> rw [h] at h' <;> cases h'

theorem scheme_pair {C : Type} [Ring C] [Algebra R C] (u : OrbSystem Ω R C) (hvac : v.Vacuum o hole) {m : Int} {L : List Slot} (hn : L.Nodup) {S : Finset (Finset Slot)}
    (hsub : ∀ b ∈ S, b ⊆ L.toFinset) (hcon : ∀ b ∈ S, IsContraction o m b) (x : Slot → Ω) :
    schemeTerm u o L x S = pairTerm (pairVal R x) (fun y => u.op y.type (x y)) L S := by
  unfold schemeTerm pairTerm
  rw [orderSign_eq, Finset.prod_congr rfl (fun b hb => conVal_pair u hvac (hcon b hb) hn (hsub b hb) x)]
  congr 5
  apply List.flatMap_congr
  intro b hb
  unfold conOrder
  rw [if_pos (con_two hvac (hcon b (Finset.mem_toList.1 hb)))]
  rfl

theorem sum_full {C : Type} [Ring C] [Algebra R C] (u : OrbSystem Ω R C) (hvac : v.Vacuum o hole) (m : Int) (ops : OperatorProduct) {minr maxr : Int} (hmin : minr ≤ 0)
    (hmax : ((slots o.spaces.length ops).length : Int) ≤ maxr) (x : Slot → Ω) :
    ∑ S ∈ schemes o m ops minr maxr, schemeTerm u o (slots o.spaces.length ops) x S =
      pairSum (IsContraction o m) (pairVal R x) (fun y => u.op y.type (x y)) (slots o.spaces.length ops) := by
  have hn := nodup_slots o.spaces.length ops
  have hset : schemes o m ops minr maxr = pairSets (IsContraction o m) (slots o.spaces.length ops) := by
    ext S
    rw [mem_schemes, mem_pairSets]
    constructor
    · rintro ⟨h1, h2, h3, _⟩; exact ⟨h1, h2, h3⟩
    · rintro ⟨h1, h2, h3⟩
      refine ⟨h1, h2, h3, ?_, ?_⟩
      · have hle : (∑ b ∈ S, b.card) ≤ (slots o.spaces.length ops).length := by
          rw [← List.toFinset_card_of_nodup hn]
          refine le_trans (le_of_eq (Finset.card_biUnion (t := id) (fun b hb b' hb' hne => h3 b hb b' hb' hne)).symm) ?_
          exact Finset.card_le_card (fun a ha => by
            obtain ⟨b, hb, hab⟩ := Finset.mem_biUnion.1 ha
            exact h1 b hb hab)
        omega
      · omega
  unfold pairSum
  rw [hset]
  apply Finset.sum_congr rfl
  intro S hS
  obtain ⟨h1, h2, _⟩ := mem_pairSets.1 hS
  exact scheme_pair u hvac hn h1 h2 x

/-- the operator of a slot at the orbitals `x` -/
def modeOf (x : Slot → Ω) (y : Slot) : SQType × Ω := (y.type, x y)

/-- lists of operators of successive factors -/
structure Segmented (L : List Slot) (ls : List (List Slot)) : Prop where
  nodup : ls.flatten.Nodup
  same : ∀ l ∈ ls, ∀ a ∈ l, ∀ b ∈ l, a.op = b.op
  lt : ls.Pairwise (fun l l' => ∀ a ∈ l, ∀ b ∈ l', a.op < b.op)
  sub : ∀ l ∈ ls, ∀ a ∈ l, a ∈ L

theorem con_iff_kap (hvac : v.Vacuum o hole) (m : Int) {ops : OperatorProduct} {x : Slot → Ω}
    (hx : ∀ y ∈ slots o.spaces.length ops, x y ∈ v.dom y.space) {y z : Slot} (hy : y ∈ slots o.spaces.length ops) (hz : z ∈ slots o.spaces.length ops)
    (hlt : y.op < z.op) : (IsContraction o m {y, z} ∧ x y = x z) ↔
      (kills hole (modeOf x y) = true ∧ kills hole (modeOf x z) = false ∧ x y = x z) := by
  have hne : y ≠ z := by rintro rfl; omega
  have hys := (mem_slots.1 hy).2.1
  have hzs := (mem_slots.1 hz).2.1
  have hk : ∀ w : Slot, kills hole (modeOf x w) = if w.cre then hole (x w) else !hole (x w) := by
    intro w
    unfold kills modeOf Slot.type
    cases w.cre <;> rfl
  rw [hk, hk]
  constructor
  · rintro ⟨⟨s, hs, hsp, h⟩, hxx⟩
    have h1 := hsp y (by simp)
    have h2 := hsp z (by simp)
    rcases h with ⟨ht, c, a, he, hc, ha, hca⟩ | ⟨ht, a, c, he, ha, hc, hca⟩ | ⟨ht, _⟩
    · have hyc : y = c ∧ z = a := by
        have e1 : y ∈ ({c, a} : Finset Slot) := by rw [← he]; simp
        have e2 : z ∈ ({c, a} : Finset Slot) := by rw [← he]; simp
        simp only [Finset.mem_insert, Finset.mem_singleton] at e1 e2
        rcases e1 with rfl | rfl <;> rcases e2 with rfl | rfl
        · exact absurd rfl hne
        · exact ⟨rfl, rfl⟩
        · omega
        · exact absurd rfl hne
      obtain ⟨rfl, rfl⟩ := hyc
      have hh : hole (x y) = true := by
        rcases hvac.kind s hs with ⟨_, h'⟩ | ⟨h', _⟩
        · exact h' _ (by rw [← h1]; exact hx y hy)
        · rw [ht] at h'; cases h'
      rw [hc, ha, ← hxx, hh]
      exact ⟨rfl, rfl, rfl⟩
    · have hyc : y = a ∧ z = c := by
        have e1 : y ∈ ({a, c} : Finset Slot) := by rw [← he]; simp
        have e2 : z ∈ ({a, c} : Finset Slot) := by rw [← he]; simp
        simp only [Finset.mem_insert, Finset.mem_singleton] at e1 e2
        rcases e1 with rfl | rfl <;> rcases e2 with rfl | rfl
        · exact absurd rfl hne
        · exact ⟨rfl, rfl⟩
        · omega
        · exact absurd rfl hne
      obtain ⟨rfl, rfl⟩ := hyc
      have hh : hole (x y) = false := by
        rcases hvac.kind s hs with ⟨h', _⟩ | ⟨_, h'⟩
        · rw [ht] at h'; cases h'
        · exact h' _ (by rw [← h1]; exact hx y hy)
      rw [hc, ha, ← hxx, hh]
      exact ⟨rfl, rfl, rfl⟩
    · rcases hvac.kind s hs with ⟨h', _⟩ | ⟨h', _⟩ <;> rw [ht] at h' <;> cases h'
  · rintro ⟨h1, h2, hxx⟩
    refine ⟨?_, hxx⟩
    have hsp : y.space = z.space := by
      by_contra hc
      exact hvac.disjoint y.space z.space hys hzs hc (x y) (hx y hy) (by rw [hxx]; exact hx z hz)
    have hall : ∀ w ∈ ({y, z} : Finset Slot), w.space = y.space := by
      intro w hw
      simp only [Finset.mem_insert, Finset.mem_singleton] at hw
      rcases hw with rfl | rfl
      · rfl
      · exact hsp.symm
    refine ⟨y.space, hys, hall, ?_⟩
    rw [← hxx] at h2
    rcases hvac.kind y.space hys with ⟨ht, h'⟩ | ⟨ht, h'⟩
    · left
      rw [h' _ (hx y hy)] at h1 h2
      refine ⟨ht, y, z, rfl, ?_, ?_, hlt⟩
      · by_contra hc; rw [if_neg hc] at h1; cases h1
      · by_contra hc; rw [if_pos (by simpa using hc)] at h2; cases h2
    · right; left
      rw [h' _ (hx y hy)] at h1 h2
      refine ⟨ht, y, z, rfl, ?_, ?_, hlt⟩
      · by_contra hc; rw [if_pos (by simpa using hc)] at h1; cases h1
      · by_contra hc; rw [if_neg hc] at h2; cases h2

/-- application to the unit -/
def applyOne (R B : Type) [CommRing R] [Ring B] [Algebra R B] : Module.End R (B × B) →ₗ[R] (B × B) where
  toFun T := T 1
  map_add' _ _ := rfl
  map_smul' _ _ := rfl

/-- Wick's theorem: the sum over all sets of disjoint contractions is the product of the normal products of the
factors. -/
theorem schemes_product (hcar : IsCAR v.op) (hvac : v.Vacuum o hole) (m : Int) (ops : OperatorProduct) {x : Slot → Ω}
    (hx : ∀ y ∈ slots o.spaces.length ops, x y ∈ v.dom y.space) :
    (pairSum (IsContraction o m) (pairVal R x) (fun y => (wsys v hole).op y.type (x y)) (slots o.spaces.length ops) 1).1 =
      ((segs o.spaces.length 0 ops).map (fun l => normalProd hole v.op (l.map (fun y => (y.type, x y))))).prod := by
  classical
  have hsys : Sys (R := R) (fun y : Slot => dop v.op (modeOf x y)) (fun y => kills hole (modeOf x y)) (fun y z => kap R hole (modeOf x y) (modeOf x z)) par := by
    have h := car_sys (R := R) hcar hole
    exact ⟨fun m n => h.anti _ _, fun m n => h.mixed _ _, fun m n => h.zero _ _, h.inv, fun m => h.odd _⟩
  have hcon : ∀ b, IsContraction o m b → b.card = 2 := fun b => con_two hvac
  have key := wick_rec hsys (fun y z => if IsContraction o m {y, z} then pairVal R x {y, z} else 0)
    (fun L => (pairSum (IsContraction o m) (pairVal R x) (fun y => (wsys v hole).op y.type (x y)) L : Module.End R (B × B)) 1)
    (Segmented (slots o.spaces.length ops)) ?_ ?_ ?_ ?_ ?_ ?_ ?_ ?_ (segs o.spaces.length 0 ops) ?_
  · rw [segs_flatten] at key
    have key' := congrArg Prod.fst key
    beta_reduce at key'
    refine Eq.trans key' ?_
    unfold qprod
    generalize segs o.spaces.length 0 ops = ls
    induction ls with
    | nil => rfl
    | cons l ls ih =>
      rw [List.map_cons, List.prod_cons, Prod.fst_mul, ih, List.map_cons, List.prod_cons, ← nprod_fst (R := R) hcar hole]
      congr 1
      unfold nprod
      rw [List.map_map]
      rfl
  · intro l ls h
    refine ⟨(List.nodup_append.1 (by simpa using h.nodup)).2.1, fun l' hl' => h.same l' (by simp [hl']), (List.pairwise_cons.1 h.lt).2, fun l' hl' => h.sub l' (by simp [hl'])⟩
  · intro y l ls h
    refine ⟨(List.nodup_cons.1 (by simpa using h.nodup)).2, ?_, ?_, ?_⟩
    · intro l' hl' a ha b hb
      rcases List.mem_cons.1 hl' with rfl | hl'
      · exact h.same (y :: l') (by simp) a (by simp [ha]) b (by simp [hb])
      · exact h.same l' (by simp [hl']) a ha b hb
    · have := List.pairwise_cons.1 h.lt
      exact List.pairwise_cons.2 ⟨fun l' hl' a ha => this.1 l' hl' a (by simp [ha]), this.2⟩
    · intro l' hl' a ha
      rcases List.mem_cons.1 hl' with rfl | hl'
      · exact h.sub (y :: l') (by simp) a (by simp [ha])
      · exact h.sub l' (by simp [hl']) a ha
  · intro z l ls h
    have hn := h.nodup
    rw [List.flatten_cons, List.nodup_append] at hn
    refine ⟨?_, ?_, ?_, ?_⟩
    · rw [List.flatten_cons, erase_flatten hn.2.1, List.nodup_append]
      exact ⟨hn.1, hn.2.1.erase z, fun a ha b hb => hn.2.2 a ha b (List.mem_of_mem_erase hb)⟩
    · intro l' hl' a ha b hb
      rcases List.mem_cons.1 hl' with rfl | hl'
      · exact h.same l' (by simp) a ha b hb
      · obtain ⟨l'', hl'', rfl⟩ := List.mem_map.1 hl'
        exact h.same l'' (by simp [hl'']) a (List.mem_of_mem_erase ha) b (List.mem_of_mem_erase hb)
    · have := List.pairwise_cons.1 h.lt
      refine List.pairwise_cons.2 ⟨?_, ?_⟩
      · intro l' hl' a ha b hb
        obtain ⟨l'', hl'', rfl⟩ := List.mem_map.1 hl'
        exact this.1 l'' hl'' a ha b (List.mem_of_mem_erase hb)
      · rw [List.pairwise_map]
        exact this.2.imp (fun hh a ha b hb => hh a (List.mem_of_mem_erase ha) b (List.mem_of_mem_erase hb))
    · intro l' hl' a ha
      rcases List.mem_cons.1 hl' with rfl | hl'
      · exact h.sub l' (by simp) a ha
      · obtain ⟨l'', hl'', rfl⟩ := List.mem_map.1 hl'
        exact h.sub l'' (by simp [hl'']) a (List.mem_of_mem_erase ha)
  · exact fun ls h => h.nodup
  · intro y l ls h z hz
    have hop := h.same (y :: l) (by simp) y (by simp) z (by simp [hz])
    rw [if_neg]
    rintro ⟨s, hs, _, h1⟩
    have pairs : ∀ c a : Slot, ({y, z} : Finset Slot) = {c, a} → c.op < a.op → False := by
      intro c a he hlt
      have e1 : c ∈ ({y, z} : Finset Slot) := by rw [he]; simp
      have e2 : a ∈ ({y, z} : Finset Slot) := by rw [he]; simp
      simp only [Finset.mem_insert, Finset.mem_singleton] at e1 e2
      rcases e1 with rfl | rfl <;> rcases e2 with rfl | rfl <;> omega
    rcases h1 with ⟨_, c, a, he, _, _, hlt⟩ | ⟨_, a, c, he, _, _, hlt⟩ | ⟨ht, _⟩
    · exact pairs c a he hlt
    · exact pairs a c he hlt
    · rcases hvac.kind s hs with ⟨h', _⟩ | ⟨h', _⟩ <;> rw [ht] at h' <;> cases h'
  · intro y l ls h z hz
    obtain ⟨l', hl', hzl⟩ := List.mem_flatten.1 hz
    have hlt := (List.pairwise_cons.1 h.lt).1 l' hl' y (by simp) z hzl
    have hy := h.sub (y :: l) (by simp) y (by simp)
    have hzL := h.sub l' (by simp [hl']) z hzl
    have hiff := con_iff_kap hvac m hx hy hzL hlt
    unfold kap pairVal
    have e : (∀ a ∈ ({y, z} : Finset Slot), ∀ b ∈ ({y, z} : Finset Slot), x a = x b) ↔ x y = x z := by
      constructor
      · intro h; exact h y (by simp) z (by simp)
      · intro h a ha b hb
        simp only [Finset.mem_insert, Finset.mem_singleton] at ha hb
        rcases ha with rfl | rfl <;> rcases hb with rfl | rfl <;> simp [h]
    simp only [e]
    rw [← ite_and]
    exact if_congr hiff rfl rfl
  · rw [pairSum_nil _ hcon]; rfl
  · intro y l ls h
    have hn := h.nodup
    rw [List.flatten_cons, List.cons_append] at hn
    beta_reduce
    rw [pairSum_cons hcon _ _ hn, LinearMap.add_apply, Module.End.mul_apply]
    congr 1
    exact alt_map (applyOne R B) _ _ _
  · refine ⟨by rw [segs_flatten]; exact nodup_slots _ _, ?_, ?_, ?_⟩
    · have : ∀ (ops : OperatorProduct) (k : Nat), ∀ l ∈ segs o.spaces.length k ops, ∃ i, ∀ a ∈ l, a.op = i := by
        intro ops
        induction ops with
        | nil => intro k l hl; cases hl
        | cons p ops ih =>
          intro k l hl
          rcases List.mem_cons.1 hl with rfl | hl
          · exact ⟨k, fun a ha => (mem_opSlots.1 ha).1⟩
          · exact ih (k + 1) l hl
      intro l hl a ha b hb
      obtain ⟨i, hi⟩ := this ops 0 l hl
      rw [hi a ha, hi b hb]
    · have : ∀ (ops : OperatorProduct) (k : Nat), (segs o.spaces.length k ops).Pairwise (fun l l' => ∀ a ∈ l, ∀ b ∈ l', a.op < b.op) := by
        intro ops
        induction ops with
        | nil => intro k; exact List.Pairwise.nil
        | cons p ops ih =>
          intro k
          refine List.pairwise_cons.2 ⟨?_, ih (k + 1)⟩
          intro l hl a ha b hb
          have h1 := (mem_opSlots.1 ha).1
          have h2 : b ∈ slotsFrom o.spaces.length (k + 1) ops := by rw [← segs_flatten]; exact List.mem_flatten.2 ⟨l, hl, hb⟩
          have h3 := slotsFrom_op h2
          omega
      exact this ops 0
    · intro l hl a ha
      show a ∈ slotsFrom o.spaces.length 0 ops
      rw [← segs_flatten]; exact List.mem_flatten.2 ⟨l, hl, ha⟩

end
end Wick
end Wicked
