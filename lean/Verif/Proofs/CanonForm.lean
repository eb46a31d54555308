import Verif.Spec.CanonForm
import Verif.Props.CanonTerm
import Verif.Props.Orders
import Verif.Proofs.WickProc
/-! # Lemmas for C64 -/
namespace Wicked
open CppLt CppEq

/-! ## multisets of indices -/

theorem map_inter_on {α β : Type} [DecidableEq α] [DecidableEq β] (f : α → β) (A B : Multiset α)
    (h : ∀ a ∈ A, ∀ b ∈ B, f a = f b → a = b) (hA : ∀ a ∈ A, ∀ b ∈ A, f a = f b → a = b) :
    (A ∩ B).map f = A.map f ∩ B.map f := by
  induction A using Multiset.induction generalizing B with
  | empty => simp
  | cons a A ih =>
    have hA' : ∀ x ∈ A, ∀ y ∈ A, f x = f y → x = y := fun x hx y hy => hA x (by simp [hx]) y (by simp [hy])
    by_cases hb : a ∈ B
    · rw [Multiset.cons_inter_of_pos _ hb, Multiset.map_cons, Multiset.map_cons, Multiset.cons_inter_of_pos _ (Multiset.mem_map_of_mem f hb),
        ih (B.erase a) (fun x hx y hy => h x (by simp [hx]) y (Multiset.mem_of_mem_erase hy)) hA', Multiset.map_erase_of_mem f B hb]
    · rw [Multiset.cons_inter_of_neg _ hb, Multiset.map_cons, Multiset.cons_inter_of_neg]
      · exact ih B (fun x hx => h x (by simp [hx])) hA'
      · intro hm
        obtain ⟨b, hb', he⟩ := Multiset.mem_map.1 hm
        exact hb (by rw [h a (by simp) b hb' he.symm]; exact hb')

/-- `std::set_intersection` of sorted ranges is the intersection of multisets -/
theorem setIntersection_coe {α : Type} [DecidableEq α] [CppLt α] [StrictTotal α] : ∀ (n : Nat) (l m : List α), l.length + m.length ≤ n →
    Sorted lt l → Sorted lt m → ((setIntersection l m : List α) : Multiset α) = (l : Multiset α) ∩ (m : Multiset α) := by
  intro n
  induction n with
  | zero =>
    intro l m h _ _
    have : l = [] := List.length_eq_zero_iff.1 (by omega)
    subst this
    rw [setIntersection]; simp
  | succ n ih =>
    intro l m hn hl hm
    cases l with
    | nil => rw [setIntersection]; simp
    | cons a l =>
      cases m with
      | nil => rw [setIntersection]; simp
      | cons b m =>
        have hl1 := (List.pairwise_cons.1 hl)
        have hm1 := (List.pairwise_cons.1 hm)
        rw [setIntersection]
        simp only [List.length_cons] at hn
        split
        · rename_i hab
          rw [ih l (b :: m) (by simp; omega) hl1.2 hm, ← Multiset.cons_coe a l, Multiset.cons_inter_of_neg]
          intro hin
          rcases List.mem_cons.1 (Multiset.mem_coe.1 hin) with rfl | hin
          · rw [StrictWeak.irrefl] at hab; cases hab
          · have := hm1.1 a hin
            rw [hab] at this; cases this
        · split
          · rename_i _ hba
            rw [ih (a :: l) m (by simp; omega) hl hm1.2, Multiset.inter_comm, Multiset.inter_comm _ ((b :: m : List α) : Multiset α), ← Multiset.cons_coe b m,
              Multiset.cons_inter_of_neg]
            intro hin
            rcases List.mem_cons.1 (Multiset.mem_coe.1 hin) with rfl | hin
            · rw [StrictWeak.irrefl] at hba; cases hba
            · have := hl1.1 b hin
              rw [hba] at this; cases this
          · rename_i h1 h2
            have hab : a = b := StrictTotal.conn a b (by simpa using h1) (by simpa using h2)
            subst hab
            rw [← Multiset.cons_coe, ih l m (by omega) hl1.2 hm1.2, ← Multiset.cons_coe a l, ← Multiset.cons_coe a m,
              Multiset.cons_inter_of_pos _ (by simp), Multiset.erase_cons_head]

/-- numbers per space from the multiset of spaces -/
def countList (n : Nat) (m : Multiset Int) : List Int := (List.range n).map (fun s : Nat => (m.count (s : Int) : Int))

theorem countList_inj {n : Nat} {m m' : Multiset Int} (hm : ∀ s ∈ m, 0 ≤ s ∧ s.toNat < n) (hm' : ∀ s ∈ m', 0 ≤ s ∧ s.toNat < n)
    (h : countList n m = countList n m') : m = m' := by
  ext s
  by_cases hs : 0 ≤ s ∧ s.toNat < n
  · have h1 := congrArg (fun l => l[s.toNat]?) h
    simp only [countList, List.getElem?_map, List.getElem?_range hs.2, Option.map_some, Option.some.injEq] at h1
    rw [show ((s.toNat : Nat) : Int) = s by omega] at h1
    exact_mod_cast h1
  · rw [Multiset.count_eq_zero_of_notMem (fun h => hs (hm s h)), Multiset.count_eq_zero_of_notMem (fun h => hs (hm' s h))]

theorem foldIncr_list {β : Type} {g : β → Int} {l : List β} {n : Nat} {c : List Int}
    (h : l.foldlM (fun c b => incr c (g b)) (List.replicate n 0) = (.ok c : Res _)) :
    c = countList n (Multiset.map g (l : Multiset β)) ∧ ∀ s ∈ Multiset.map g (l : Multiset β), 0 ≤ s ∧ s.toNat < n := by
  obtain ⟨h1, h2, h3⟩ := foldIncr_spec g l _ c h
  rw [List.length_replicate] at h1 h2
  constructor
  · apply List.ext_getElem
    · simp [countList, h1]
    · intro k hk hk'
      have := h3 k (by omega)
      rw [cnt_zero] at this
      unfold cnt at this
      rw [show (k : Int).toNat = k by omega, List.getD_eq_getElem?_getD, List.getElem?_eq_getElem hk, Option.getD_some] at this
      rw [this]
      simp only [countList, List.getElem_map, List.getElem_range, Multiset.map_coe, Multiset.coe_count, zero_add]
      congr 1
      rw [List.count, List.countP_map, List.countP_eq_length_filter]
      congr 1
  · intro s hs
    obtain ⟨b, hb, rfl⟩ := Multiset.mem_map.1 hs
    exact h2 b (Multiset.mem_coe.1 hb)

theorem numIndices_list {o : OSI} {l : List Index} {c : List Int} (h : numIndicesPerSpace o l = .ok c) :
    c = countList o.spaces.length (Multiset.map Index.space (l : Multiset Index)) ∧ ∀ s ∈ Multiset.map Index.space (l : Multiset Index), 0 ≤ s ∧ s.toNat < o.spaces.length :=
  foldIncr_list h

/-! ## the score without the tensor -/

abbrev Key := Str × Int × List Int × List Int × STerm.Conn × STerm.Conn

def keyOf (s : STerm.Score) : Key := (s.1, s.2.1, s.2.2.1, s.2.2.2.1, s.2.2.2.2.1, s.2.2.2.2.2.1)

theorem lt_of_keyOf {a b : STerm.Score} (h : lt (keyOf a) (keyOf b) = true) : lt a b = true := by
  obtain ⟨a1, a2, a3, a4, a5, a6, a7⟩ := a
  obtain ⟨b1, b2, b3, b4, b5, b6, b7⟩ := b
  simp only [keyOf, lt, Bool.or_eq_true, Bool.and_eq_true, Bool.not_eq_true'] at h ⊢
  tauto

theorem stdSort_keys (l : List STerm.Score) : (stdSort l).map keyOf = stdSort (l.map keyOf) := by
  apply stdSortBy_unique
  · exact (stdSort_perm l).map _
  · have := stdSort_sorted l
    unfold Sorted at this ⊢
    rw [List.pairwise_map]
    refine this.imp ?_
    intro a b h
    by_contra hn
    rw [Bool.not_eq_false] at hn
    rw [lt_of_keyOf hn] at h; cases h

theorem stdSort_perm_eq {α : Type} [CppLt α] [StrictTotal α] {l l' : List α} (h : l.Perm l') : stdSort l = stdSort l' :=
  stdSortBy_unique l' (stdSort l) ((stdSort_perm l).trans h) (stdSort_sorted l)

/-- no two tensors compare equal -/
def NoEq (ts : List Tensor) : Prop := ts.Pairwise (fun x y => Tensor.eqB x y = false)

theorem eqB_iff (a b : Tensor) : Tensor.eqB a b = true ↔ a.label = b.label ∧ a.lower = b.lower ∧ a.upper = b.upper :=
  C14_tensor_and_term_orders.1.2.2 a b

theorem eqB_comm (a b : Tensor) : Tensor.eqB a b = Tensor.eqB b a := by
  rw [Bool.eq_iff_iff, eqB_iff, eqB_iff]; tauto

theorem filter_erase {ts : List Tensor} (h : NoEq ts) {x : Tensor} (hx : x ∈ ts) : ts.filter (fun y => !Tensor.eqB x y) = ts.erase x := by
  induction ts with
  | nil => cases hx
  | cons a ts ih =>
    have h' := List.pairwise_cons.1 h
    rcases List.mem_cons.1 hx with rfl | hx
    · rw [List.erase_cons_head, List.filter_cons_of_neg, List.filter_eq_self]
      · intro y hy
        rw [h'.1 y hy]; rfl
      · have : Tensor.eqB x x = true := (eqB_iff x x).2 ⟨rfl, rfl, rfl⟩
        simp [this]
    · have hax : Tensor.eqB x a = false := by rw [eqB_comm]; exact h'.1 x hx
      have hne : a ≠ x := by
        rintro rfl
        rw [(eqB_iff a a).2 ⟨rfl, rfl, rfl⟩] at hax; cases hax
      rw [List.filter_cons_of_pos (by simp [hax]), List.erase_cons_tail (by simpa using hne), ih h'.2 hx]

/-- the key computed from the signature -/
noncomputable def keyOfSig (n : Nat) (s : TensorSig) : Key :=
  (s.label, (s.low.card : Int) + s.upp.card, countList n s.low, countList n s.upp,
    stdSort (s.lowConn.map (fun p => (p.1, countList n p.2))).toList, stdSort (s.uppConn.map (fun p => (p.1, countList n p.2))).toList)

theorem connectivity_sig {o : OSI} {ts : List Tensor} (hno : NoEq ts) {x : Tensor} (hx : x ∈ ts) {u : Bool} {c : STerm.Conn}
    (h : STerm.tensorConnectivity o ts x u = .ok c) :
    c = stdSort ((((ts : Multiset Tensor).erase x).map (fun y => (y.label, commonSpaces (if u then x.upper else x.lower) (if u then y.lower else y.upper)))).map
      (fun p => (p.1, countList o.spaces.length p.2))).toList := by
  unfold STerm.tensorConnectivity at h
  simp only [bind, Except.bind] at h
  split at h
  · cases h
  rename_i R hR
  cases h
  apply stdSort_perm_eq
  rw [← Multiset.coe_eq_coe, Multiset.coe_toList, Multiset.map_map, Multiset.coe_erase, ← filter_erase hno hx, Multiset.map_coe]
  congr 1
  have := (mapM_ok_iff _ _ _).1 hR
  rw [show (fun y => !eq x y) = (fun y => !Tensor.eqB x y) from rfl] at this
  generalize ts.filter (fun y => !Tensor.eqB x y) = F at this
  clear hR
  induction this with
  | nil => rfl
  | cons h1 _ ih =>
    rename_i y r ys rs _
    rw [List.map_cons, ← ih]
    congr 1
    split at h1
    · cases h1
    rename_i c hc
    cases h1
    rw [(numIndices_list hc).1]
    simp only [Function.comp, commonSpaces]
    rw [setIntersection_coe _ _ _ (le_refl _) (stdSort_sorted _) (stdSort_sorted _), Multiset.coe_eq_coe.2 (stdSort_perm _), Multiset.coe_eq_coe.2 (stdSort_perm _)]

theorem score_sig {o : OSI} {ts : List Tensor} (hno : NoEq ts) {x : Tensor} (hx : x ∈ ts) {s : STerm.Score}
    (h : STerm.score o ts x = .ok s) : keyOf s = keyOfSig o.spaces.length (tensorSig ts x) ∧ s.2.2.2.2.2.2 = x ∧
      ∀ i ∈ x.lower ++ x.upper, i.Registered o := by
  unfold STerm.score at h
  simp only [bind, Except.bind] at h
  split at h
  · cases h
  rename_i c1 e1
  split at h
  · cases h
  rename_i c2 e2
  split at h
  · cases h
  rename_i c3 e3
  split at h
  · cases h
  rename_i c4 e4
  cases h
  refine ⟨?_, rfl, ?_⟩
  · unfold keyOf keyOfSig
    rw [connectivity_sig hno hx e3, connectivity_sig hno hx e4, (numIndices_list e1).1, (numIndices_list e2).1]
    simp [tensorSig, Tensor.rank]
  · intro i hi
    rcases List.mem_append.1 hi with hi | hi
    · exact (numIndices_list e1).2 _ (Multiset.mem_map_of_mem _ hi)
    · exact (numIndices_list e2).2 _ (Multiset.mem_map_of_mem _ hi)


/-! ## the key determines the signature -/

theorem map_inj_on {α β : Type} [DecidableEq α] [DecidableEq β] {f : α → β} {A B : Multiset α}
    (h : ∀ a ∈ A + B, ∀ b ∈ A + B, f a = f b → a = b) (he : A.map f = B.map f) : A = B := by
  have h1 : (A ∩ B).map f = A.map f := by
    rw [map_inter_on f A B (fun a ha b hb => h a (by simp [ha]) b (by simp [hb])) (fun a ha b hb => h a (by simp [ha]) b (by simp [hb])), ← he]
    exact inf_idem _
  have hc := congrArg Multiset.card h1
  have hc2 := congrArg Multiset.card he
  rw [Multiset.card_map, Multiset.card_map] at hc hc2
  have e1 : A ∩ B = A := Multiset.eq_of_le_of_card_le Multiset.inter_le_left (by omega)
  have e2 : A ∩ B = B := Multiset.eq_of_le_of_card_le Multiset.inter_le_right (by omega)
  exact e1.symm.trans e2

theorem commonSpaces_registered {o : OSI} {l m : List Index} (h : ∀ i ∈ l, i.Registered o) : ∀ s ∈ commonSpaces l m, 0 ≤ s ∧ s.toNat < o.spaces.length := by
  intro s hs
  obtain ⟨i, hi, rfl⟩ := Multiset.mem_map.1 hs
  exact h i (Multiset.mem_coe.1 (Multiset.mem_of_le Multiset.inter_le_left hi))

/-- the spaces in a signature are registered -/
structure SigReg (n : Nat) (s : TensorSig) : Prop where
  low : ∀ x ∈ s.low, 0 ≤ x ∧ x.toNat < n
  upp : ∀ x ∈ s.upp, 0 ≤ x ∧ x.toNat < n
  lc : ∀ p ∈ s.lowConn, ∀ x ∈ p.2, 0 ≤ x ∧ x.toNat < n
  uc : ∀ p ∈ s.uppConn, ∀ x ∈ p.2, 0 ≤ x ∧ x.toNat < n

theorem sigReg {o : OSI} {ts : List Tensor} {x : Tensor} (h : ∀ i ∈ x.lower ++ x.upper, i.Registered o) : SigReg o.spaces.length (tensorSig ts x) where
  low := by
    intro s hs
    simp only [tensorSig] at hs
    obtain ⟨i, hi, rfl⟩ := Multiset.mem_map.1 hs
    exact h i (List.mem_append_left _ hi)
  upp := by
    intro s hs
    simp only [tensorSig] at hs
    obtain ⟨i, hi, rfl⟩ := Multiset.mem_map.1 hs
    exact h i (List.mem_append_right _ hi)
  lc := by
    intro p hp
    simp only [tensorSig] at hp
    obtain ⟨y, _, rfl⟩ := Multiset.mem_map.1 hp
    exact commonSpaces_registered (fun i hi => h i (List.mem_append_left _ hi))
  uc := by
    intro p hp
    simp only [tensorSig] at hp
    obtain ⟨y, _, rfl⟩ := Multiset.mem_map.1 hp
    exact commonSpaces_registered (fun i hi => h i (List.mem_append_right _ hi))

theorem conn_inj {n : Nat} {A B : Multiset (Str × Multiset Int)} (hA : ∀ p ∈ A, ∀ x ∈ p.2, 0 ≤ x ∧ x.toNat < n) (hB : ∀ p ∈ B, ∀ x ∈ p.2, 0 ≤ x ∧ x.toNat < n)
    (h : stdSort (A.map (fun p => (p.1, countList n p.2))).toList = stdSort (B.map (fun p => (p.1, countList n p.2))).toList) : A = B := by
  have h1 : (A.map (fun p => (p.1, countList n p.2))) = B.map (fun p => (p.1, countList n p.2)) := by
    rw [← Multiset.coe_toList (A.map _), ← Multiset.coe_toList (B.map _), Multiset.coe_eq_coe]
    exact (stdSort_perm _).symm.trans (h ▸ stdSort_perm _)
  have hAB : ∀ p ∈ A + B, ∀ x ∈ p.2, 0 ≤ x ∧ x.toNat < n := by
    intro p hp
    rcases Multiset.mem_add.1 hp with hp | hp
    · exact hA p hp
    · exact hB p hp
  refine map_inj_on ?_ h1
  intro p hp q hq he
  rw [Prod.mk.injEq] at he
  exact Prod.ext he.1 (countList_inj (hAB p hp) (hAB q hq) he.2)

theorem keyOfSig_inj {n : Nat} {s s' : TensorSig} (hs : SigReg n s) (hs' : SigReg n s') (h : keyOfSig n s = keyOfSig n s') : s = s' := by
  obtain ⟨l, a, b, c, d⟩ := s
  obtain ⟨l', a', b', c', d'⟩ := s'
  simp only [keyOfSig, Prod.mk.injEq] at h
  obtain ⟨h1, _, h2, h3, h4, h5⟩ := h
  have e2 := countList_inj hs.low hs'.low h2
  have e3 := countList_inj hs.upp hs'.upp h3
  have e4 := conn_inj hs.lc hs'.lc h4
  have e5 := conn_inj hs.uc hs'.uc h5
  dsimp only at e2 e3 e4 e5
  rw [h1, e2, e3, e4, e5]

/-! ## renaming and rearranging -/

/-- `y` is `x` with other names and its indices in any order -/
def Alike (ρ : Index → Index) (x y : Tensor) : Prop :=
  y.label = x.label ∧ y.lower.Perm (x.lower.map ρ) ∧ y.upper.Perm (x.upper.map ρ)

/-- `ρ` is a renaming of the indices of the tensors -/
structure Renaming (ρ : Index → Index) (ts : List Tensor) : Prop where
  space : ∀ x ∈ ts, ∀ i ∈ x.lower ++ x.upper, (ρ i).space = i.space
  inj : ∀ x ∈ ts, ∀ i ∈ x.lower ++ x.upper, ∀ y ∈ ts, ∀ j ∈ y.lower ++ y.upper, ρ i = ρ j → i = j

theorem common_alike {ρ : Index → Index} {l m l' m' : List Index} (hl : l'.Perm (l.map ρ)) (hm : m'.Perm (m.map ρ))
    (hs : ∀ i ∈ l, (ρ i).space = i.space) (hi : ∀ i ∈ l ++ m, ∀ j ∈ l ++ m, ρ i = ρ j → i = j) : commonSpaces l' m' = commonSpaces l m := by
  unfold commonSpaces
  rw [Multiset.coe_eq_coe.2 hl, Multiset.coe_eq_coe.2 hm, ← Multiset.map_coe, ← Multiset.map_coe, ← map_inter_on ρ, Multiset.map_map]
  · apply Multiset.map_congr rfl
    intro i h
    exact hs i (Multiset.mem_coe.1 (Multiset.mem_of_le Multiset.inter_le_left h))
  · intro a ha b hb
    exact hi a (List.mem_append_left _ ha) b (List.mem_append_right _ hb)
  · intro a ha b hb
    exact hi a (List.mem_append_left _ ha) b (List.mem_append_left _ hb)

theorem spaces_alike {ρ : Index → Index} {l l' : List Index} (hl : l'.Perm (l.map ρ)) (hs : ∀ i ∈ l, (ρ i).space = i.space) :
    Multiset.map Index.space (l' : Multiset Index) = Multiset.map Index.space (l : Multiset Index) := by
  rw [Multiset.coe_eq_coe.2 hl, ← Multiset.map_coe, Multiset.map_map]
  exact Multiset.map_congr rfl hs

theorem forall₂_map_eq {α β γ : Type _} {R : α → β → Prop} {f : α → γ} {g : β → γ} {l : List α} {l' : List β} (h : List.Forall₂ R l l')
    (hfg : ∀ a ∈ l, ∀ b ∈ l', R a b → g b = f a) : l'.map g = l.map f := by
  induction h with
  | nil => rfl
  | cons h1 _ ih =>
    rw [List.map_cons, List.map_cons, hfg _ (by simp) _ (by simp) h1, ih (fun a ha b hb => hfg a (by simp [ha]) b (by simp [hb]))]

theorem sig_one {ρ : Index → Index} {ts ts' a a' : List Tensor} {x x' : Tensor} (h1 : ts.Perm (x :: a)) (h2 : ts'.Perm (x' :: a'))
    (hx : Alike ρ x x') (ha : List.Forall₂ (Alike ρ) a a') (hρ : Renaming ρ ts) : tensorSig ts' x' = tensorSig ts x := by
  have hxm : x ∈ ts := h1.symm.subset (by simp)
  have ham : ∀ y ∈ a, y ∈ ts := fun y hy => h1.symm.subset (by simp [hy])
  have hlow : ∀ i ∈ x.lower, i ∈ x.lower ++ x.upper := fun i hi => List.mem_append_left _ hi
  have hupp : ∀ i ∈ x.upper, i ∈ x.lower ++ x.upper := fun i hi => List.mem_append_right _ hi
  unfold tensorSig
  rw [hx.1, spaces_alike hx.2.1 (fun i hi => hρ.space x hxm i (hlow i hi)), spaces_alike hx.2.2 (fun i hi => hρ.space x hxm i (hupp i hi)),
    Multiset.coe_eq_coe.2 h1, Multiset.coe_eq_coe.2 h2, ← Multiset.cons_coe, ← Multiset.cons_coe, Multiset.erase_cons_head, Multiset.erase_cons_head,
    Multiset.map_coe, Multiset.map_coe, Multiset.map_coe, Multiset.map_coe]
  have e1 : a'.map (fun y => (y.label, commonSpaces x'.lower y.upper)) = a.map (fun y => (y.label, commonSpaces x.lower y.upper)) := by
    apply forall₂_map_eq ha
    intro y hy y' _ hR
    rw [hR.1, common_alike hx.2.1 hR.2.2 (fun i hi => hρ.space x hxm i (hlow i hi))]
    intro i hi j hj
    have mem : ∀ i ∈ x.lower ++ y.upper, ∃ z ∈ ts, i ∈ z.lower ++ z.upper := by
      intro i hi
      rcases List.mem_append.1 hi with hi | hi
      · exact ⟨x, hxm, List.mem_append_left _ hi⟩
      · exact ⟨y, ham y hy, List.mem_append_right _ hi⟩
    obtain ⟨z, hz, hi⟩ := mem i hi
    obtain ⟨w, hw, hj⟩ := mem j hj
    exact hρ.inj z hz i hi w hw j hj
  have e2 : a'.map (fun y => (y.label, commonSpaces x'.upper y.lower)) = a.map (fun y => (y.label, commonSpaces x.upper y.lower)) := by
    apply forall₂_map_eq ha
    intro y hy y' _ hR
    rw [hR.1, common_alike hx.2.2 hR.2.1 (fun i hi => hρ.space x hxm i (hupp i hi))]
    intro i hi j hj
    have mem : ∀ i ∈ x.upper ++ y.lower, ∃ z ∈ ts, i ∈ z.lower ++ z.upper := by
      intro i hi
      rcases List.mem_append.1 hi with hi | hi
      · exact ⟨x, hxm, List.mem_append_right _ hi⟩
      · exact ⟨y, ham y hy, List.mem_append_left _ hi⟩
    obtain ⟨z, hz, hi⟩ := mem i hi
    obtain ⟨w, hw, hj⟩ := mem j hj
    exact hρ.inj z hz i hi w hw j hj
  rw [e1, e2]
  rfl

theorem sig_alike {ρ : Index → Index} {ts ts' l : List Tensor} (hF : List.Forall₂ (Alike ρ) ts l) (hp : ts'.Perm l) (hρ : Renaming ρ ts) :
    List.Forall₂ (fun x y => Alike ρ x y ∧ tensorSig ts' y = tensorSig ts x) ts l := by
  have key : ∀ (b b' : List Tensor), List.Forall₂ (Alike ρ) b b' → ∀ a a', List.Forall₂ (Alike ρ) a a' → ts.Perm (a ++ b) → ts'.Perm (a' ++ b') →
      List.Forall₂ (fun x y => Alike ρ x y ∧ tensorSig ts' y = tensorSig ts x) b b' := by
    intro b b' hb
    induction hb with
    | nil => intros; exact List.Forall₂.nil
    | cons h1 h2 ih =>
      rename_i x x' b b'
      intro a a' ha p p'
      refine List.Forall₂.cons ⟨h1, ?_⟩ ?_
      · exact sig_one (p.trans List.perm_middle) (p'.trans List.perm_middle) h1 (List.rel_append ha h2) hρ
      · refine ih (a ++ [x]) (a' ++ [x']) (List.rel_append ha (List.Forall₂.cons h1 .nil)) ?_ ?_
        · simpa using p
        · simpa using p'
  exact key ts l hF [] [] .nil (List.Perm.refl _) hp

/-- all signatures are different -/
def Dist (ts : List Tensor) : Prop := ts.Pairwise (fun x y => tensorSig ts x ≠ tensorSig ts y)

theorem dist_nodup {ts : List Tensor} : Dist ts ↔ (ts.map (tensorSig ts)).Nodup := by
  unfold Dist List.Nodup
  rw [List.pairwise_map]

theorem dist_alike {ρ : Index → Index} {ts ts' l : List Tensor} (hF : List.Forall₂ (Alike ρ) ts l) (hp : ts'.Perm l) (hρ : Renaming ρ ts)
    (hD : Dist ts) : Dist ts' := by
  rw [dist_nodup] at hD ⊢
  have h := sig_alike hF hp hρ
  have e : l.map (tensorSig ts') = ts.map (tensorSig ts) := forall₂_map_eq h (fun _ _ _ _ hR => hR.2)
  rw [(hp.map _).nodup_iff, e]
  exact hD

theorem dist_noEq {ts : List Tensor} (hD : Dist ts) : NoEq ts := by
  unfold NoEq
  rw [List.pairwise_iff_forall_sublist]
  intro x y hsub
  have h1 := (List.pairwise_iff_forall_sublist.1 hD) hsub
  by_contra hn
  rw [Bool.not_eq_false, eqB_iff] at hn
  apply h1
  have hle : ({x, y} : Multiset Tensor) ≤ (ts : Multiset Tensor) := Multiset.coe_le.2 hsub.subperm
  obtain ⟨K, hK⟩ := Multiset.le_iff_exists_add.1 hle
  have e1 : (ts : Multiset Tensor).erase x = y ::ₘ K := by
    rw [hK]; simp [Multiset.insert_eq_cons]
  have e2 : (ts : Multiset Tensor).erase y = x ::ₘ K := by
    rw [hK, show ({x, y} : Multiset Tensor) + K = y ::ₘ x ::ₘ K by
      rw [Multiset.insert_eq_cons, Multiset.cons_add, Multiset.singleton_add, Multiset.cons_swap], Multiset.erase_cons_head]
  unfold tensorSig
  rw [e1, e2]
  simp only [Multiset.map_cons, hn.1, hn.2.1, hn.2.2]

/-! ## the sorted tensors of terms that are alike -/

theorem scores_key {o : OSI} {ts : List Tensor} (hno : NoEq ts) {scores : List STerm.Score}
    (h : ts.mapM (m := Except Fault) (STerm.score o ts) = .ok scores) :
    scores.map keyOf = ts.map (fun x => keyOfSig o.spaces.length (tensorSig ts x)) ∧
      ∀ s ∈ scores, s.2.2.2.2.2.2 ∈ ts ∧ keyOf s = keyOfSig o.spaces.length (tensorSig ts s.2.2.2.2.2.2) ∧ ∀ i ∈ s.2.2.2.2.2.2.lower ++ s.2.2.2.2.2.2.upper, i.Registered o := by
  have hF := (mapM_ok_iff _ _ _).1 h
  constructor
  · exact forall₂_map_eq hF (fun x hx s _ hs => (score_sig hno hx hs).1)
  · intro s hs
    obtain ⟨x, hx, hxs⟩ := Wick.forall₂_right hF s hs
    obtain ⟨h1, h2, h3⟩ := score_sig hno hx hxs
    rw [h2]
    exact ⟨hx, h1, h3⟩

theorem sorted_alike {o : OSI} {ρ : Index → Index} {ts ts' l : List Tensor} (hF : List.Forall₂ (Alike ρ) ts l) (hp : ts'.Perm l) (hρ : Renaming ρ ts)
    (hD : Dist ts) {scores scores' : List STerm.Score}
    (h : ts.mapM (m := Except Fault) (STerm.score o ts) = .ok scores) (h' : ts'.mapM (m := Except Fault) (STerm.score o ts') = .ok scores') :
    List.Forall₂ (fun x y => x ∈ ts ∧ y ∈ l ∧ Alike ρ x y ∧ tensorSig ts' y = tensorSig ts x ∧
        ∀ z ∈ ts, ∀ w ∈ l, Alike ρ z w → tensorSig ts' w = tensorSig ts z → w = y → z = x)
      ((stdSort scores).map (fun s => s.2.2.2.2.2.2)) ((stdSort scores').map (fun s => s.2.2.2.2.2.2)) := by
  have hD' := dist_alike hF hp hρ hD
  obtain ⟨k1, m1⟩ := scores_key (dist_noEq hD) h
  obtain ⟨k2, m2⟩ := scores_key (dist_noEq hD') h'
  have hS := sig_alike hF hp hρ
  have hl : l.map (fun x => keyOfSig o.spaces.length (tensorSig ts' x)) = ts.map (fun x => keyOfSig o.spaces.length (tensorSig ts x)) :=
    forall₂_map_eq hS (fun _ _ _ _ hR => by rw [hR.2])
  have e : (stdSort scores).map keyOf = (stdSort scores').map keyOf := by
    rw [stdSort_keys, stdSort_keys]
    apply stdSort_perm_eq
    rw [k1, k2, ← hl]
    exact (hp.map _).symm
  have hk : List.Forall₂ (fun a b => keyOf a = keyOf b) (stdSort scores) (stdSort scores') := by
    rw [← List.forall₂_eq_eq_eq, List.forall₂_map_left_iff, List.forall₂_map_right_iff] at e
    exact e
  have hnd := dist_nodup.1 hD
  have inj : ∀ z ∈ ts, ∀ x ∈ ts, tensorSig ts z = tensorSig ts x → z = x := fun z hz x hx hzx => List.inj_on_of_nodup_map hnd hz hx hzx
  rw [List.forall₂_map_left_iff, List.forall₂_map_right_iff]
  have hm1 : ∀ a ∈ stdSort scores, a ∈ scores := fun a ha => (stdSort_perm scores).subset ha
  have hm2 : ∀ a ∈ stdSort scores', a ∈ scores' := fun a ha => (stdSort_perm scores').subset ha
  generalize stdSort scores = S at hk hm1
  generalize stdSort scores' = S' at hk hm2
  clear e
  induction hk with
  | nil => exact .nil
  | cons hab _ ih =>
    rename_i a b S S' _
    refine .cons ?_ (ih (fun x hx => hm1 x (by simp [hx])) (fun x hx => hm2 x (by simp [hx])))
    obtain ⟨a1, a2, a3⟩ := m1 a (hm1 a (by simp))
    obtain ⟨b1, b2, b3⟩ := m2 b (hm2 b (by simp))
    have hbl := hp.subset b1
    obtain ⟨x, hx, hax, hsx⟩ := Wick.forall₂_right hS _ hbl
    have hxa : x = a.2.2.2.2.2.2 := by
      apply inj x hx _ a1
      apply keyOfSig_inj (n := o.spaces.length)
      · rw [← hsx]; exact sigReg b3
      · exact sigReg a3
      · rw [← hsx, ← b2, ← a2, hab]
    subst hxa
    refine ⟨a1, hbl, hax, hsx, ?_⟩
    rintro z hz w hw _ hsw rfl
    apply inj z hz _ a1
    rw [← hsw, hsx]

end Wicked
