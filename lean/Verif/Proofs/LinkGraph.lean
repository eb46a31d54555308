import Verif.Props.WickGraph
/-! Rearrangements of a contracted product give the same term, when every operator of the product has an
even number of second-quantized operators -/
namespace Wicked
open CppLt CppEq Rational
namespace Wick

/-- number of second-quantized operators of each operator of the product is even -/
def AllEven (ops : OperatorProduct) : Prop := ∀ p ∈ ops, p.numOps % 2 = 0

theorem even_prod {a b : Int} (ha : 0 ≤ a) (hb : 0 ≤ b) (h : a % 2 = 0) : ((-1 : Int)) ^ (a * b).toNat = 1 := by
  obtain ⟨k, rfl⟩ : ∃ k, a = 2 * k := ⟨a / 2, by omega⟩
  have hk : 0 ≤ k := by omega
  have : (2 * k * b).toNat = 2 * (k * b).toNat := by
    have : 0 ≤ k * b := Int.mul_nonneg hk hb
    rw [Int.mul_assoc]; omega
  rw [this, pow_mul]; norm_num

theorem exchangeSign_even {n : Int → Int} {l : List Int} (hn : ∀ a ∈ l, 0 ≤ n a ∧ n a % 2 = 0) : exchangeSign n l = 1 := by
  induction l with
  | nil => rfl
  | cons a l ih =>
    rw [exchangeSign, ih (fun b hb => hn b (by simp [hb])), mul_one]
    apply List.prod_eq_one
    intro x hx
    obtain ⟨b, hb, rfl⟩ := List.mem_map.1 hx
    split
    · exact even_prod (hn a (by simp)).1 (hn b (by simp [hb])).1 (hn a (by simp)).2
    · rfl

theorem opAt_mem {ops : OperatorProduct} {i : Nat} (h : i < ops.length) : opAt ops i ∈ ops := by
  unfold opAt
  rw [List.getD_eq_getElem?_getD, List.getElem?_eq_getElem h]; exact List.getElem_mem _

theorem exchangeSign_allEven {ns : Nat} {ops : OperatorProduct} (hv : ∀ p ∈ ops, p.Valid ns) (he : AllEven ops) {p : List Int}
    (hp : IsPermOf ops.length p) : exchangeSign (fun i => (opAt ops i.toNat).numOps) p = 1 := by
  apply exchangeSign_even
  intro a ha
  have := (mem_perm hp).1 ha
  exact ⟨opAt_numOps_nonneg hv _, he _ (opAt_mem (by omega))⟩

theorem allEven_graph {ops : OperatorProduct} {p c : List Int} (hp : IsPermOf ops.length p) (h : AllEven ops) :
    AllEven (graphOps ops (p, c)) := fun q hq => h q ((perm_graphOps hp).mem_iff.1 hq)

/-- the legs of `e` permuted by `p` -/
def row (p : List Int) (e : EContr) : EContr := p.map (fun i => gmAt e i.toNat)

theorem legs_cong {n s : Nat} {c a c' a' : Nat → Int} {e : EContr} (h : Legs n s c a e) (hc : ∀ A < n, c A = c' A) (ha : ∀ A < n, a A = a' A) :
    Legs n s c' a' e := by
  refine ⟨h.1, fun A hA t => ?_⟩
  rw [← hc A hA, ← ha A hA]; exact h.2 A hA t

theorem row_elementary {o : OSI} {m : Int} {ops : OperatorProduct} {e : EContr} (h : IsElementary o m ops e) {p c : List Int}
    (hp : IsPermOf ops.length p)
    (hx : ∀ a b, Exchanged p a b → ¬ PairJoined o.spaces.length [e] a.toNat b.toNat) :
    IsElementary o m (graphOps ops (p, c)) (row p e) := by
  have hlen : (graphOps ops (p, c)).length = ops.length := length_graphOps hp
  -- places of the operators in the new order
  have hpl : ∀ l < ops.length, ∃ k < ops.length, pAt p k = l := by
    intro l hl
    have hm : (l : Int) ∈ p := (mem_perm hp).2 ⟨by omega, by omega⟩
    refine ⟨p.idxOf (l : Int), ?_, ?_⟩
    · have := List.idxOf_lt_length_of_mem hm; rw [len_perm hp] at this; exact this
    · unfold pAt; rw [getD_idxOf hm]; simp
  have hinj : ∀ k < ops.length, ∀ k' < ops.length, pAt p k = pAt p k' → k = k' := by
    intro k hk k' hk' he
    have h1 := getD_perm hp (i := (k : Int)) (by omega) (by omega)
    have h2 := getD_perm hp (i := (k' : Int)) (by omega) (by omega)
    have hz : p.getD k 0 = p.getD k' 0 := by
      have a1 := (mem_perm hp).1 h1.1
      have a2 := (mem_perm hp).1 h2.1
      unfold pAt at he
      simp only [Int.toNat_natCast] at a1 a2
      omega
    have := h1.2; have := h2.2
    simp only [Int.toNat_natCast] at *
    rw [hz] at *
    omega
  have hord : ∀ l r, l < r → r < ops.length → PairJoined o.spaces.length [e] r l → ∀ k < ops.length, ∀ k' < ops.length, pAt p k = l → pAt p k' = r → k < k' := by
    intro l r hlr hr hj k hk k' hk' h1 h2
    rcases Nat.lt_trichotomy k k' with h | h | h
    · exact h
    · subst h; omega
    · exfalso
      refine hx (r : Int) (l : Int) ⟨?_, by omega⟩ (by simpa using hj)
      have hmr : (r : Int) ∈ p := (mem_perm hp).2 ⟨by omega, by omega⟩
      have hml : (l : Int) ∈ p := (mem_perm hp).2 ⟨by omega, by omega⟩
      have g1 := getD_perm hp (i := (k : Int)) (by omega) (by omega)
      have g2 := getD_perm hp (i := (k' : Int)) (by omega) (by omega)
      simp only [Int.toNat_natCast] at g1 g2
      have e1 : p.getD k 0 = (l : Int) := by
        have := (mem_perm hp).1 g1.1; unfold pAt at h1; omega
      have e2 : p.getD k' 0 = (r : Int) := by
        have := (mem_perm hp).1 g2.1; unfold pAt at h2; omega
      rw [sublist_pair_iff (nodup_perm hp) hmr hml]
      rw [e1] at g1; rw [e2] at g2
      omega
  obtain ⟨s, hs, h⟩ := h
  have hlegs : ∀ {c' a' : Nat → Int}, Legs ops.length s c' a' e →
      Legs ops.length s (fun A => c' (pAt p A)) (fun A => a' (pAt p A)) (row p e) := by
    intro c' a' hL
    refine ⟨by unfold row; rw [List.length_map]; exact len_perm hp, ?_⟩
    intro A hA t
    unfold row
    rw [gmAt_row hp e hA]
    exact hL.2 _ (pAt_lt hp hA) t
  have hjoin : ∀ {c' a' : Nat → Int} {l r : Nat}, Legs ops.length s c' a' e → l < ops.length → r < ops.length →
      (∀ A < ops.length, 0 ≤ c' A ∧ 0 ≤ a' A) →
      ((List.range ops.length).map c').sum = 1 → ((List.range ops.length).map a').sum = 1 → 0 < c' l + a' l → 0 < c' r + a' r →
      PairJoined o.spaces.length [e] r l := by
    intro c' a' l r hL hl hr hnn h1 h2 h3 h4
    refine ⟨e, by simp, ?_, ?_, ?_⟩
    · rw [hL.1]
      rw [show ((List.range ops.length).map (legsAt o.spaces.length e)) = (List.range ops.length).map (fun A => c' A + a' A) from
        List.map_congr_left (fun A hA => legsAt_legs hs hL (List.mem_range.1 hA)), sum_map_add', h1, h2]
      rfl
    · rw [legsAt_legs hs hL hr]; exact h4
    · rw [legsAt_legs hs hL hl]; exact h3
  refine ⟨s, hs, ?_⟩
  rw [hlen]
  rcases h with ⟨ht, l, r, hlr, hr, hc, ha, hL⟩ | ⟨ht, l, r, hlr, hr, hc, ha, hL⟩ | ⟨ht, c', a', k, hk, hkm, hb, h1, h2, ⟨A, B, hAB, hB, hA0, hB0⟩, hL⟩
  · left
    obtain ⟨kl, hkl, el⟩ := hpl l (by omega)
    obtain ⟨kr, hkr, er⟩ := hpl r hr
    have hj := hjoin (l := l) (r := r) hL (by omega) hr (by intro A _; constructor <;> split <;> omega)
      (sum_ind _ _ (by omega)) (sum_ind _ _ hr) (by rw [if_pos rfl, if_neg (by omega)]; omega)
      (by rw [if_pos rfl, if_neg (by omega)]; omega)
    refine ⟨ht, kl, kr, hord l r hlr hr hj kl hkl kr hkr el er, hkr, ?_, ?_, legs_cong (hlegs hL) ?_ ?_⟩
    · rw [opAt_graphOps hp hkl, el]; exact hc
    · rw [opAt_graphOps hp hkr, er]; exact ha
    · intro A hA
      have : pAt p A = l ↔ A = kl := ⟨fun h => hinj A hA kl hkl (by rw [h, el]), fun h => by rw [h, el]⟩
      simp only [this]
    · intro A hA
      have : pAt p A = r ↔ A = kr := ⟨fun h => hinj A hA kr hkr (by rw [h, er]), fun h => by rw [h, er]⟩
      simp only [this]
  · right; left
    obtain ⟨kl, hkl, el⟩ := hpl l (by omega)
    obtain ⟨kr, hkr, er⟩ := hpl r hr
    have hj := hjoin (l := l) (r := r) hL (by omega) hr (by intro A _; constructor <;> split <;> omega)
      (sum_ind _ _ hr) (sum_ind _ _ (by omega)) (by rw [if_pos rfl, if_neg (by omega)]; omega)
      (by rw [if_pos rfl, if_neg (by omega)]; omega)
    refine ⟨ht, kl, kr, hord l r hlr hr hj kl hkl kr hkr el er, hkr, ?_, ?_, legs_cong (hlegs hL) ?_ ?_⟩
    · rw [opAt_graphOps hp hkl, el]; exact hc
    · rw [opAt_graphOps hp hkr, er]; exact ha
    · intro A hA
      have : pAt p A = r ↔ A = kr := ⟨fun h => hinj A hA kr hkr (by rw [h, er]), fun h => by rw [h, er]⟩
      simp only [this]
    · intro A hA
      have : pAt p A = l ↔ A = kl := ⟨fun h => hinj A hA kl hkl (by rw [h, el]), fun h => by rw [h, el]⟩
      simp only [this]
  · right; right
    obtain ⟨kl, hkl, el⟩ := hpl A (by omega)
    obtain ⟨kr, hkr, er⟩ := hpl B hB
    refine ⟨ht, fun A => c' (pAt p A), fun A => a' (pAt p A), k, hk, hkm, ?_, ?_, ?_, ?_, hlegs hL⟩
    · intro A hA
      rw [opAt_graphOps hp hA]
      exact hb _ (pAt_lt hp hA)
    · rw [← h1]; exact (perm_pAt hp c').sum_eq
    · rw [← h2]; exact (perm_pAt hp a').sum_eq
    · rcases Nat.lt_trichotomy kl kr with h | h | h
      · exact ⟨kl, kr, h, hkr, by dsimp only; rw [el]; exact hA0, by dsimp only; rw [er]; exact hB0⟩
      · subst h; omega
      · exact ⟨kr, kl, h, hkl, by dsimp only; rw [er]; exact hB0, by dsimp only; rw [el]; exact hA0⟩

theorem graph_elementary {o : OSI} {m : Int} {ops : OperatorProduct} {cs : CContr} (hcs : ∀ e ∈ cs, IsElementary o m ops e)
    {g : Graph} (hA : Admissible o.spaces.length ops cs g) :
    ∀ e ∈ graphContr cs g, IsElementary o m (graphOps ops g) e := by
  rcases g with ⟨p, c⟩
  intro e he
  rw [(graphContr_perm hA.contr).mem_iff] at he
  obtain ⟨e', he', rfl⟩ := List.mem_map.1 he
  refine row_elementary (hcs e' he') hA.ops ?_
  intro a b hx hj
  refine hA.exch a b hx ?_
  obtain ⟨e'', h1, h2⟩ := hj
  rw [List.mem_singleton] at h1
  subst h1
  exact ⟨_, he', h2⟩

/-- **a rearranged contraction gives the same term with the same coefficient** -/
theorem processOne_graph {o : OSI} {cfg : WickCfg} {m : Int} {ops : OperatorProduct} {cs : CContr} (h8 : o.spaces.length ≤ 8)
    (hcg : cfg.canonGraph = true) (hv : ∀ p ∈ ops, p.Valid o.spaces.length) (hev : AllEven ops)
    (hcs : ∀ e ∈ cs, IsElementary o m ops e) {g : Graph} (hA : Admissible o.spaces.length ops cs g) (f : Rational) :
    processOne o cfg (graphOps ops g) (graphContr cs g) f = processOne o cfg ops cs f := by
  rcases g with ⟨p, c⟩
  have hcs' := graph_elementary hcs hA
  have hv' := valid_graphOps (c := c) hv hA.ops
  have hev' := allEven_graph (c := c) hA.ops hev
  obtain ⟨g1, s1, h1, a1, e1⟩ := canonicalizeGraph_ok h8 (fun e he => elementary_evaluable (hcs e he)) (opAt_numOps_nonneg hv)
  obtain ⟨g2, s2, h2, a2, e2⟩ := canonicalizeGraph_ok h8 (fun e he => elementary_evaluable (hcs' e he)) (opAt_numOps_nonneg hv')
  have hr := C52_representative_partial h8 hv hcs hA h1 h2
  rw [exchangeSign_allEven hv hev a1.ops] at e1
  rw [exchangeSign_allEven hv' hev' a2.ops] at e2
  have c1 : Canon s1 := by
    obtain ⟨q, hq, e⟩ := canonicalizeGraph_mem h1
    have := graphs_canon hq
    rw [show s1 = q.2 from congrArg (fun z : OperatorProduct × CContr × Rational => z.2.2) e]; exact this
  have c2 : Canon s2 := by
    obtain ⟨q, hq, e⟩ := canonicalizeGraph_mem h2
    have := graphs_canon hq
    rw [show s2 = q.2 from congrArg (fun z : OperatorProduct × CContr × Rational => z.2.2) e]; exact this
  have hs : s2 = s1 := toRat_inj c2 c1 (by rw [e1, e2])
  simp only at hr
  unfold processOne
  rw [if_pos hcg, if_pos hcg, h1, h2, hr.1, hr.2, hs]

end Wick
end Wicked
