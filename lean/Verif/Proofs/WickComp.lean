import Verif.Proofs.WickElem
/-! Step 2 of Wick's theorem: backtracking over elementary contractions -/
namespace Wicked
open CppLt CppEq
namespace Wick

/-- a list of `n` graph matrices with non-negative entries, zero outside the first `ns` spaces -/
def Good (ns n : Nat) (l : List GraphMatrix) : Prop :=
  l.length = n ∧ ∀ A < n, ∀ t, 0 ≤ (gmAt l A).cre t ∧ 0 ≤ (gmAt l A).ann t ∧
    (ns ≤ t → (gmAt l A).cre t = 0 ∧ (gmAt l A).ann t = 0)

theorem gmAt_map_range (n : Nat) (f : Nat → GraphMatrix) (A : Nat) (h : A < n) :
    gmAt ((List.range n).map f) A = f A := by simp [gmAt, h]

theorem list_eq_map_gmAt (l : List GraphMatrix) : l = (List.range l.length).map (gmAt l) := by
  apply List.ext_getElem
  · simp
  · intro i h1 h2; simp [gmAt, h1]

theorem putLegs_takeLegs (ns : Nat) (free : List GraphMatrix) (e : EContr) :
    putLegs ns (takeLegs ns free e) e = free := by
  conv_rhs => rw [list_eq_map_gmAt free]
  unfold putLegs
  have hl : (takeLegs ns free e).length = free.length := by simp [takeLegs]
  rw [hl]
  apply List.map_congr_left
  intro A hA
  rw [takeLegs, gmAt_map_range _ _ _ (List.mem_range.1 hA), GraphMatrix.add_sub_cancel]

theorem sumNumOps_range (l : List GraphMatrix) :
    GraphMatrix.sumNumOps l = ((List.range l.length).map (fun A => (gmAt l A).numOps)).sum := by
  rw [sumNumOps_eq]
  conv_lhs => rw [list_eq_map_gmAt l]
  rw [List.map_map]; rfl

theorem sum_map_sub {l : List Nat} {f g : Nat → Int} : (l.map (fun A => f A - g A)).sum = (l.map f).sum - (l.map g).sum := by
  induction l with
  | nil => simp
  | cons a l ih => simp only [List.map_cons, List.sum_cons, ih]; omega

theorem numOps_sub (ns : Nat) (g h : GraphMatrix) (hh : ∀ t, ns ≤ t → h.cre t = 0 ∧ h.ann t = 0) :
    (g.sub ns h).numOps = g.numOps - h.numOps := by
  rw [GraphMatrix.numOps_eq, GraphMatrix.numOps_eq, GraphMatrix.numOps_eq, ← sum_map_sub]
  congr 1
  apply List.map_congr_left
  intro s _
  rw [GraphMatrix.cre_sub, GraphMatrix.ann_sub]
  by_cases hs : s < ns
  · simp [hs]; omega
  · simp [hs, hh s (by omega)]

theorem numOps_nonneg (g : GraphMatrix) (h : ∀ t, 0 ≤ g.cre t ∧ 0 ≤ g.ann t) : 0 ≤ g.numOps := by
  rw [GraphMatrix.numOps_eq]
  have : ((List.range 8).map (fun _ => (0 : Int))).sum ≤ ((List.range 8).map (fun s => g.cre s + g.ann s)).sum :=
    sum_map_le (fun s _ => by have := h s; omega)
  simpa using this

theorem sumNumOps_nonneg {ns n : Nat} {l : List GraphMatrix} (h : Good ns n l) : 0 ≤ GraphMatrix.sumNumOps l := by
  rw [sumNumOps_range]
  have : ((List.range l.length).map (fun _ => (0 : Int))).sum ≤ ((List.range l.length).map (fun A => (gmAt l A).numOps)).sum :=
    sum_map_le (fun A hA => numOps_nonneg _ (fun t => by
      have := h.2 A (by rw [← h.1]; exact List.mem_range.1 hA) t; exact ⟨this.1, this.2.1⟩))
  simpa using this

theorem sumNumOps_takeLegs {ns n : Nat} {free : List GraphMatrix} {e : EContr} (hf : Good ns n free) (he : Good ns n e) :
    GraphMatrix.sumNumOps (takeLegs ns free e) = GraphMatrix.sumNumOps free - e.numOps := by
  unfold EContr.numOps
  rw [sumNumOps_range, sumNumOps_range, sumNumOps_range]
  have hl : (takeLegs ns free e).length = n := by simp [takeLegs, hf.1]
  rw [hl, hf.1, he.1, ← sum_map_sub]
  congr 1
  apply List.map_congr_left
  intro A hA
  have hA := List.mem_range.1 hA
  rw [takeLegs, hf.1, gmAt_map_range _ _ _ hA, numOps_sub]
  intro t ht; exact (he.2 A hA t).2.2 ht

theorem fits_iff {ns n : Nat} {free : List GraphMatrix} {e : EContr} (hf : free.length = n) :
    fits ns free e = true ↔ ∀ A < n, ∀ s < ns, (gmAt e A).cre s ≤ (gmAt free A).cre s ∧ (gmAt e A).ann s ≤ (gmAt free A).ann s := by
  simp [fits, hf]

theorem good_takeLegs {ns n : Nat} {free : List GraphMatrix} {e : EContr} (hf : Good ns n free) (_he : Good ns n e)
    (hfit : fits ns free e = true) : Good ns n (takeLegs ns free e) := by
  rw [fits_iff hf.1] at hfit
  refine ⟨by simp [takeLegs, hf.1], fun A hA t => ?_⟩
  rw [takeLegs, hf.1, gmAt_map_range _ _ _ hA, GraphMatrix.cre_sub, GraphMatrix.ann_sub]
  have h1 := hf.2 A hA t
  by_cases ht : t < ns
  · have h3 := hfit A hA t ht
    rw [if_pos ht, if_pos ht]
    exact ⟨by omega, by omega, fun h => by omega⟩
  · rw [if_neg ht, if_neg ht]; exact h1

theorem fits_numOps {ns n : Nat} {free : List GraphMatrix} {e : EContr} (hf : Good ns n free) (he : Good ns n e)
    (hfit : fits ns free e = true) : e.numOps ≤ GraphMatrix.sumNumOps free := by
  have h1 := sumNumOps_takeLegs hf he
  have h2 := sumNumOps_nonneg (good_takeLegs hf he hfit)
  omega

/-! ### the enumeration without the buffer -/

/-- the elementary contraction number `c` -/
def elAt (el : List EContr) (c : Int) : EContr := el.getD c.toNat []

theorem elAt_mem {el : List EContr} {c : Int} (h : c.toNat < el.length) : elAt el c ∈ el := by
  unfold elAt
  rw [List.getD_eq_getElem?_getD, List.getElem?_eq_getElem h]
  exact List.getElem_mem _

/-- pure version of the backtracking: extensions by contractions `≥ minc` -/
def comp (ns : Nat) (el : List EContr) (minr maxr : Int) : Nat → Int → List GraphMatrix → List (List Int)
  | 0, _, _ => []
  | fuel + 1, minc, free =>
    (if GraphMatrix.sumNumOps free ≥ minr ∧ GraphMatrix.sumNumOps free ≤ maxr then [[]] else []) ++
    ((intRange minc (el.length - 1)).filter (fun c => fits ns free (elAt el c))).flatMap (fun c =>
      (comp ns el minr maxr fuel c (takeLegs ns free (elAt el c))).map (fun cv => c :: cv))

theorem wr_ok {x : List Int} {k : Nat} (h : k < x.length) (v : Int) : wr x (k : Int) v = .ok (x.set k v) := by
  unfold wr; rw [if_pos (by constructor; omega; simpa using h)]; simp

theorem take_set_self {x : List Int} {k : Nat} {v : Int} : (x.set k v).take k = x.take k := by
  rw [List.take_set, List.set_eq_of_length_le]; simp

theorem take_succ_set {x : List Int} {k : Nat} {v : Int} (h : k < x.length) :
    (x.set k v).take (k + 1) = x.take k ++ [v] := by
  rw [List.take_add_one, take_set_self]; simp [h]

/-- the depth condition: no sequence of contractions is longer than the buffer -/
def Deep (ns : Nat) (el : List EContr) (N : Int) (fuel : Nat) (k : Nat) (minc : Int) (free : List GraphMatrix) : Prop :=
  ∀ cv ∈ comp ns el 0 N fuel minc free, k + cv.length ≤ 100

/-- the buffered, mutating loop computes `comp` and restores the counts of free operators, unless it
has to go deeper than the buffer -/
theorem backtrack_eq {ns n : Nat} {el : List EContr} (hel : ∀ e ∈ el, Good ns n e ∧ 2 ≤ e.numOps) (minr maxr N : Int) :
    ∀ (fuel : Nat) (a : List Int) (k : Nat) (free : List GraphMatrix) (out : List (List Int)) (minc : Int),
      a.length = 100 → k ≤ 100 → Good ns n free → GraphMatrix.sumNumOps free < fuel →
      GraphMatrix.sumNumOps free ≤ N → 0 ≤ minc →
      (minc = if k = 0 then 0 else a.getD (k - 1) 0) →
      (Deep ns el N fuel k minc free → backtrack ns el minr maxr fuel a k free out =
        .ok (free, out ++ (comp ns el minr maxr fuel minc free).map (fun cv => a.take k ++ cv))) ∧
      (¬ Deep ns el N fuel k minc free → backtrack ns el minr maxr fuel a k free out = .error .ub) := by
  intro fuel
  induction fuel with
  | zero =>
    intro a k free out minc _ _ hf h
    have := sumNumOps_nonneg hf; omega
  | succ fuel ih =>
    intro a k free out minc ha hk hf hfuel hN hm0 hm
    have hcand : candidates ns a (k + 1) el free =
        .ok ((intRange minc (el.length - 1)).filter (fun c => fits ns free (elAt el c))) := by
      unfold candidates
      by_cases h0 : k = 0
      · subst h0
        simp only [if_true] at hm
        subst hm
        rfl
      · rw [if_neg h0] at hm
        have h1 : k + 1 > 1 := by omega
        have h2 : k - 1 < a.length := by omega
        have h3 : rd a ((k + 1 - 2 : Nat) : Int) = .ok minc := by
          unfold rd
          have e : k + 1 - 2 = k - 1 := by omega
          rw [if_pos (by omega), e]
          simp only [Int.toNat_natCast]
          rw [hm]; simp [h2]
        rw [if_pos h1, h3]
        rfl
    rw [backtrack, hcand]
    simp only [bind, Except.bind, pure, Except.pure]
    -- the loop over the candidates
    have loop : ∀ (cs : List Int) (a' : List Int) (out' : List (List Int)),
        (∀ c ∈ cs, 0 ≤ c ∧ elAt el c ∈ el ∧ fits ns free (elAt el c) = true) →
        a'.length = 100 → a'.take k = a.take k →
        ((∀ c ∈ cs, Deep ns el N fuel (k + 1) c (takeLegs ns free (elAt el c))) →
        ∃ a'', cs.foldlM (init := (a', free, out')) (fun st c => do
            let a1 ← wr st.1 k c
            let free1 := takeLegs ns st.2.1 (el.getD c.toNat [])
            let r ← backtrack ns el minr maxr fuel a1 (k + 1) free1 st.2.2
            let a2 ← wr a1 k (-1)
            return (a2, putLegs ns r.1 (el.getD c.toNat []), r.2)) =
          (.ok (a'', free, out' ++ (cs.flatMap (fun c =>
            (comp ns el minr maxr fuel c (takeLegs ns free (elAt el c))).map (fun cv => c :: cv))).map
              (fun cv => a.take k ++ cv)) : Res _)) ∧
        ((¬ ∀ c ∈ cs, Deep ns el N fuel (k + 1) c (takeLegs ns free (elAt el c))) →
          cs.foldlM (init := (a', free, out')) (fun st c => do
            let a1 ← wr st.1 k c
            let free1 := takeLegs ns st.2.1 (el.getD c.toNat [])
            let r ← backtrack ns el minr maxr fuel a1 (k + 1) free1 st.2.2
            let a2 ← wr a1 k (-1)
            return (a2, putLegs ns r.1 (el.getD c.toNat []), r.2)) = (.error .ub : Res _)) := by
      intro cs
      induction cs with
      | nil => intro a' out' _ _ _; exact ⟨fun _ => ⟨a', by simp [pure, Except.pure]⟩, fun h => absurd (by simp) h⟩
      | cons c cs ihc =>
        intro a' out' hcs hla hta
        obtain ⟨hc0, hcm, hcf⟩ := hcs c (by simp)
        have hg := hel _ hcm
        have hnum := fits_numOps hf hg.1 hcf
        have hfree := good_takeLegs hf hg.1 hcf
        have hsum := sumNumOps_takeLegs hf hg.1
        have hge := hg.2
        by_cases hk' : k < 100
        swap
        · constructor
          · intro hD
            exfalso
            have hD := hD c (by simp)
            have hmem : ([] : List Int) ∈ comp ns el 0 N fuel c (takeLegs ns free (elAt el c)) := by
              cases fuel with
              | zero => have := sumNumOps_nonneg hf; omega
              | succ fuel =>
                rw [comp, if_pos]
                · simp
                · have := sumNumOps_nonneg hfree
                  constructor <;> omega
            have := hD [] hmem
            simp at this
            omega
          · intro _
            rw [List.foldlM_cons]
            have e1 : wr a' (k : Int) c = .error .ub := by
              unfold wr; rw [if_neg (by omega)]
            simp only [bind, Except.bind, e1]
        have e1 : wr a' (k : Int) c = .ok (a'.set k c) := wr_ok (by omega) c
        obtain ⟨e2, e2'⟩ :=
          ih (a'.set k c) (k + 1) (takeLegs ns free (elAt el c)) out' c (by simpa using hla) (by omega) hfree
            (by omega) (by omega) hc0 (by simp [hla, hk'])
        have e3 : wr (a'.set k c) (k : Int) (-1) = .ok ((a'.set k c).set k (-1)) := wr_ok (by simp; omega) _
        obtain ⟨i1, i2⟩ := ihc ((a'.set k c).set k (-1))
          (out' ++ (comp ns el minr maxr fuel c (takeLegs ns free (elAt el c))).map
            (fun cv => (a'.set k c).take (k + 1) ++ cv))
          (fun x hx => hcs x (by simp [hx])) (by simpa using hla) (by rw [take_set_self, take_set_self, hta])
        constructor
        · intro hD
          have e2 := e2 (hD c (by simp))
          obtain ⟨a'', h''⟩ := i1 (fun x hx => hD x (by simp [hx]))
          refine ⟨a'', ?_⟩
          rw [List.foldlM_cons]
          simp only [bind, Except.bind, e1]
          rw [show el.getD c.toNat [] = elAt el c from rfl]
          rw [e2]
          simp only [e3, pure, Except.pure]
          change List.foldlM _ ((a'.set k c).set k (-1), putLegs ns (takeLegs ns free (elAt el c)) (elAt el c), _) cs = _
          rw [putLegs_takeLegs]
          rw [show (fun (st : List Int × List GraphMatrix × List (List Int)) (c : Int) => _) = _ from rfl] at h''
          refine h''.trans ?_
          rw [List.flatMap_cons, List.map_append, List.append_assoc, List.map_map, take_succ_set (by omega), hta]
          congr 4
          apply congrArg (· ++ _)
          apply List.map_congr_left
          intro cv _
          simp
        · intro hD
          by_cases hDc : Deep ns el N fuel (k + 1) c (takeLegs ns free (elAt el c))
          · have hDs : ¬ ∀ c ∈ cs, Deep ns el N fuel (k + 1) c (takeLegs ns free (elAt el c)) := by
              intro h
              apply hD
              intro x hx
              rcases List.mem_cons.1 hx with rfl | hx
              · exact hDc
              · exact h x hx
            have h'' := i2 hDs
            rw [List.foldlM_cons]
            simp only [bind, Except.bind, e1]
            rw [show el.getD c.toNat [] = elAt el c from rfl]
            rw [e2 hDc]
            simp only [e3, pure, Except.pure]
            change List.foldlM _ ((a'.set k c).set k (-1), putLegs ns (takeLegs ns free (elAt el c)) (elAt el c), _) cs = _
            rw [putLegs_takeLegs]
            exact h''
          · rw [List.foldlM_cons]
            simp only [bind, Except.bind, e1]
            rw [show el.getD c.toNat [] = elAt el c from rfl]
            rw [e2' hDc]
    obtain ⟨l1, l2⟩ := loop ((intRange minc (el.length - 1)).filter (fun c => fits ns free (elAt el c))) a
      (if GraphMatrix.sumNumOps free ≥ minr ∧ GraphMatrix.sumNumOps free ≤ maxr then out ++ [a.take k] else out)
      (by
        intro c hc
        obtain ⟨h1, h2⟩ := List.mem_filter.1 hc
        rw [mem_intRange] at h1
        refine ⟨by omega, ?_, h2⟩
        have : c.toNat < el.length := by omega
        exact elAt_mem this)
      ha rfl
    have hDeep : Deep ns el N (fuel + 1) k minc free ↔ ∀ c ∈ (intRange minc (el.length - 1)).filter (fun c => fits ns free (elAt el c)),
        Deep ns el N fuel (k + 1) c (takeLegs ns free (elAt el c)) := by
      unfold Deep
      constructor
      · intro h c hc cv hcv
        have := h (c :: cv) (by
          rw [comp, List.mem_append]
          exact Or.inr (List.mem_flatMap.2 ⟨c, hc, List.mem_map_of_mem hcv⟩))
        simp at this
        omega
      · intro h cv hcv
        rw [comp, List.mem_append] at hcv
        rcases hcv with hcv | hcv
        · split at hcv
          · rw [List.mem_singleton] at hcv; subst hcv; simpa using hk
          · cases hcv
        · obtain ⟨c, hc, hcv⟩ := List.mem_flatMap.1 hcv
          obtain ⟨cv', hcv', rfl⟩ := List.mem_map.1 hcv
          have := h c hc cv' hcv'
          simp
          omega
    rw [hDeep]
    constructor
    · intro hD
      obtain ⟨a'', h''⟩ := l1 hD
      simp only [bind, Except.bind, pure, Except.pure] at h''
      rw [h'']
      simp only [comp]
      split
      · simp
      · simp
    · intro hD
      have h'' := l2 hD
      simp only [bind, Except.bind, pure, Except.pure] at h''
      rw [h'']

/-! ### what `comp` enumerates -/

/-- total number of creation legs taken from operator `A` in space `s` -/
def legsCre (el : List EContr) (cv : List Int) (A s : Nat) : Int := (cv.map (fun c => (gmAt (elAt el c) A).cre s)).sum
/-- total number of annihilation legs -/
def legsAnn (el : List EContr) (cv : List Int) (A s : Nat) : Int := (cv.map (fun c => (gmAt (elAt el c) A).ann s)).sum

theorem mem_comp {ns n : Nat} {el : List EContr} (hel : ∀ e ∈ el, Good ns n e ∧ 2 ≤ e.numOps) (minr maxr : Int) :
    ∀ (fuel : Nat) (minc : Int) (free : List GraphMatrix), 0 ≤ minc → Good ns n free →
      GraphMatrix.sumNumOps free < fuel → ∀ cv, cv ∈ comp ns el minr maxr fuel minc free ↔
        (minc :: cv).Pairwise (· ≤ ·) ∧ (∀ c ∈ cv, c < el.length) ∧
        (∀ A < n, ∀ s < ns, legsCre el cv A s ≤ (gmAt free A).cre s ∧ legsAnn el cv A s ≤ (gmAt free A).ann s) ∧
        minr ≤ GraphMatrix.sumNumOps free - (cv.map (fun c => (elAt el c).numOps)).sum ∧
        GraphMatrix.sumNumOps free - (cv.map (fun c => (elAt el c).numOps)).sum ≤ maxr := by
  intro fuel
  induction fuel with
  | zero => intro minc free _ hf h; have := sumNumOps_nonneg hf; omega
  | succ fuel ih =>
    intro minc free hm hf hfuel cv
    rw [comp, List.mem_append]
    have elmem : ∀ c : Int, 0 ≤ c → c < el.length → elAt el c ∈ el := by
      intro c h0 h1
      have : c.toNat < el.length := by omega
      exact elAt_mem this
    cases cv with
    | nil =>
      have h2 : ¬ ([] : List Int) ∈ ((intRange minc (el.length - 1)).filter (fun c => fits ns free (elAt el c))).flatMap
          (fun c => (comp ns el minr maxr fuel c (takeLegs ns free (elAt el c))).map (fun cv => c :: cv)) := by
        simp
      rw [or_iff_left h2]
      have h3 : ∀ A < n, ∀ s < ns, legsCre el [] A s ≤ (gmAt free A).cre s ∧ legsAnn el [] A s ≤ (gmAt free A).ann s := by
        intro A hA s _
        have := hf.2 A hA s
        simp [legsCre, legsAnn]; omega
      constructor
      · intro h
        split at h
        · rename_i hw
          refine ⟨by simp, by simp, h3, ?_, ?_⟩ <;> simp <;> omega
        · simp at h
      · rintro ⟨_, _, _, h4, h5⟩
        simp at h4 h5
        rw [if_pos ⟨h4, h5⟩]; simp
    | cons c cv =>
      have h1 : ¬ (c :: cv) ∈ (if GraphMatrix.sumNumOps free ≥ minr ∧ GraphMatrix.sumNumOps free ≤ maxr then
          [([] : List Int)] else []) := by split <;> simp
      rw [or_iff_right h1, List.mem_flatMap]
      have step : ∀ c : Int, minc ≤ c → c < el.length → fits ns free (elAt el c) = true →
          ∀ cv', cv' ∈ comp ns el minr maxr fuel c (takeLegs ns free (elAt el c)) ↔
          (c :: cv').Pairwise (· ≤ ·) ∧ (∀ x ∈ cv', x < el.length) ∧
          (∀ A < n, ∀ s < ns, legsCre el cv' A s ≤ (gmAt (takeLegs ns free (elAt el c)) A).cre s ∧
            legsAnn el cv' A s ≤ (gmAt (takeLegs ns free (elAt el c)) A).ann s) ∧
          minr ≤ GraphMatrix.sumNumOps (takeLegs ns free (elAt el c)) - (cv'.map (fun c => (elAt el c).numOps)).sum ∧
          GraphMatrix.sumNumOps (takeLegs ns free (elAt el c)) - (cv'.map (fun c => (elAt el c).numOps)).sum ≤ maxr := by
        intro c h0 h1 h2 cv'
        have hg := hel _ (elmem c (by omega) h1)
        exact ih c _ (by omega) (good_takeLegs hf hg.1 h2)
          (by rw [sumNumOps_takeLegs hf hg.1]; have := hg.2; omega) cv'
      constructor
      · rintro ⟨c', hc', hmem⟩
        obtain ⟨cv', hcv', heq⟩ := List.mem_map.1 hmem
        injection heq with e1 e2
        subst e1; subst e2
        obtain ⟨h2, h3⟩ := List.mem_filter.1 hc'
        rw [mem_intRange] at h2
        obtain ⟨p1, p2, p3, p4, p5⟩ := (step c' h2.1 (by omega) h3 cv').1 hcv'
        have hg := hel _ (elmem c' (by omega) (by omega))
        rw [sumNumOps_takeLegs hf hg.1] at p4 p5
        have hp := List.pairwise_cons.1 p1
        refine ⟨List.pairwise_cons.2 ⟨?_, p1⟩, ?_, ?_, ?_, ?_⟩
        · intro x hx
          rcases List.mem_cons.1 hx with rfl | hx
          · exact h2.1
          · exact h2.1.trans (hp.1 x hx)
        · intro x hx
          rcases List.mem_cons.1 hx with rfl | hx
          · omega
          · exact p2 x hx
        · intro A hA s hs
          have := p3 A hA s hs
          rw [takeLegs, hf.1, gmAt_map_range _ _ _ hA, GraphMatrix.cre_sub, GraphMatrix.ann_sub, if_pos hs, if_pos hs] at this
          simp only [legsCre, legsAnn, List.map_cons, List.sum_cons] at this ⊢
          omega
        · simp only [List.map_cons, List.sum_cons]; omega
        · simp only [List.map_cons, List.sum_cons]; omega
      · rintro ⟨p1, p2, p3, p4, p5⟩
        have hp := List.pairwise_cons.1 p1
        have hc1 : minc ≤ c := hp.1 c (by simp)
        have hc2 : c < el.length := p2 c (by simp)
        have hg := hel _ (elmem c (by omega) hc2)
        have hp2 := List.pairwise_cons.1 hp.2
        have nonneg : ∀ A < n, ∀ s, 0 ≤ legsCre el cv A s ∧ 0 ≤ legsAnn el cv A s := by
          intro A hA s
          constructor
          · apply List.sum_nonneg
            intro x hx
            obtain ⟨y, hy, rfl⟩ := List.mem_map.1 hx
            have := hp2.1 y hy
            exact ((hel _ (elmem y (by omega) (p2 y (by simp [hy])))).1.2 A hA s).1
          · apply List.sum_nonneg
            intro x hx
            obtain ⟨y, hy, rfl⟩ := List.mem_map.1 hx
            have := hp2.1 y hy
            exact ((hel _ (elmem y (by omega) (p2 y (by simp [hy])))).1.2 A hA s).2.1
        have hfit : fits ns free (elAt el c) = true := by
          rw [fits_iff hf.1]
          intro A hA s hs
          have h1 := p3 A hA s hs
          have h2 := nonneg A hA s
          simp only [legsCre, legsAnn, List.map_cons, List.sum_cons] at h1 h2
          omega
        refine ⟨c, List.mem_filter.2 ⟨mem_intRange.2 ⟨hc1, by omega⟩, hfit⟩, List.mem_map.2 ⟨cv, ?_, rfl⟩⟩
        rw [step c hc1 hc2 hfit]
        simp only [List.map_cons, List.sum_cons] at p4 p5
        rw [sumNumOps_takeLegs hf hg.1]
        refine ⟨hp.2, fun x hx => p2 x (by simp [hx]), ?_, by omega, by omega⟩
        intro A hA s hs
        have h1 := p3 A hA s hs
        rw [takeLegs, hf.1, gmAt_map_range _ _ _ hA, GraphMatrix.cre_sub, GraphMatrix.ann_sub, if_pos hs, if_pos hs]
        simp only [legsCre, legsAnn, List.map_cons, List.sum_cons] at h1 ⊢
        omega

theorem comp_nodup {ns : Nat} {el : List EContr} (minr maxr : Int) :
    ∀ (fuel : Nat) (minc : Int) (free : List GraphMatrix), (comp ns el minr maxr fuel minc free).Nodup := by
  intro fuel
  induction fuel with
  | zero => intro _ _; simp [comp]
  | succ fuel ih =>
    intro minc free
    rw [comp, List.nodup_append]
    refine ⟨by split <;> simp, ?_, ?_⟩
    · rw [List.nodup_flatMap]
      constructor
      · intro c _
        exact (ih c _).map (fun x y h => by injection h)
      · refine List.Pairwise.imp_of_mem ?_ ((intRange_nodup _ _).filter _)
        intro c c' _ _ hne
        rw [Function.onFun, List.disjoint_left]
        intro x hx hx'
        obtain ⟨y, _, rfl⟩ := List.mem_map.1 hx
        obtain ⟨y', _, h⟩ := List.mem_map.1 hx'
        injection h with h _
        exact hne h.symm
    · intro x hx y hy heq
      subst heq
      rw [List.mem_flatMap] at hy
      obtain ⟨c, _, hy⟩ := hy
      obtain ⟨y', _, rfl⟩ := List.mem_map.1 hy
      split at hx <;> simp at hx

/-! ### elementary contractions are good -/

theorem sum_range_ite (n s : Nat) (f : Nat → Int) :
    ((List.range n).map (fun t => if t = s then f t else 0)).sum = if s < n then f s else 0 := by
  induction n with
  | zero => simp
  | succ n ih =>
    rw [List.range_succ, List.map_append, List.sum_append, ih]
    simp only [List.map_cons, List.map_nil, List.sum_cons, List.sum_nil]
    by_cases h : n = s
    · subst h; simp
    · rw [if_neg h]
      by_cases h2 : s < n
      · rw [if_pos h2, if_pos (by omega)]; omega
      · rw [if_neg h2, if_neg (by omega)]; omega

theorem sum_map_add' {l : List Nat} {f g : Nat → Int} : (l.map (fun A => f A + g A)).sum = (l.map f).sum + (l.map g).sum := by
  induction l with
  | nil => simp
  | cons a l ih => simp only [List.map_cons, List.sum_cons, ih]; omega

/-- the number of operators of a graph matrix with entries in the first `ns ≤ 8` spaces -/
theorem numOps_range {ns : Nat} (h8 : ns ≤ 8) (g : GraphMatrix) (h : ∀ t, ns ≤ t → g.cre t = 0 ∧ g.ann t = 0) :
    g.numOps = ((List.range ns).map (fun s => g.cre s + g.ann s)).sum := by
  rw [GraphMatrix.numOps_eq]
  have key : ∀ m, ns ≤ m → ((List.range m).map (fun s => g.cre s + g.ann s)).sum =
      ((List.range ns).map (fun s => g.cre s + g.ann s)).sum := by
    intro m hm
    induction m with
    | zero => simp [Nat.le_zero.1 hm]
    | succ m ih =>
      by_cases h1 : ns ≤ m
      · rw [List.range_succ, List.map_append, List.sum_append, ih h1]
        simp [h m h1]
      · have : ns = m + 1 := by omega
        rw [this]
  exact key 8 h8

theorem legs_numOps {n s : Nat} {c a : Nat → Int} {e : EContr} (hs : s < 8) (h : Legs n s c a e) :
    e.numOps = ((List.range n).map c).sum + ((List.range n).map a).sum := by
  unfold EContr.numOps
  rw [sumNumOps_range, h.1, ← sum_map_add']
  congr 1
  apply List.map_congr_left
  intro A hA
  rw [GraphMatrix.numOps_eq]
  have : ∀ t ∈ List.range 8, (gmAt e A).cre t + (gmAt e A).ann t = if t = s then c A + a A else 0 := by
    intro t _
    rw [(h.2 A (List.mem_range.1 hA) t).1, (h.2 A (List.mem_range.1 hA) t).2]
    split <;> simp
  rw [List.map_congr_left this]
  have := sum_range_ite 8 s (fun _ => c A + a A)
  rw [this, if_pos hs]

/-- an elementary contraction moves `2k ≥ 2` operators and is non-negative -/
theorem elementary_good {o : OSI} {m : Int} {ops : OperatorProduct} {e : EContr} (h8 : o.spaces.length ≤ 8)
    (h : IsElementary o m ops e) : Good o.spaces.length ops.length e ∧ ∃ k : Int, 1 ≤ k ∧ e.numOps = 2 * k := by
  have good : ∀ (s : Nat) (c a : Nat → Int), s < o.spaces.length → Legs ops.length s c a e →
      (∀ A < ops.length, 0 ≤ c A ∧ 0 ≤ a A) → Good o.spaces.length ops.length e := by
    intro s c a hs hL hc
    refine ⟨hL.1, fun A hA t => ?_⟩
    rw [(hL.2 A hA t).1, (hL.2 A hA t).2]
    by_cases ht : t = s
    · rw [if_pos ht, if_pos ht]; exact ⟨(hc A hA).1, (hc A hA).2, fun h => by omega⟩
    · rw [if_neg ht, if_neg ht]; exact ⟨by omega, by omega, fun _ => ⟨rfl, rfl⟩⟩
  have ind : ∀ (l : Nat), l < ops.length → ((List.range ops.length).map (fun A => if A = l then (1 : Int) else 0)).sum = 1 := by
    intro l hl
    have := sum_range_ite ops.length l (fun _ => 1)
    rw [this, if_pos hl]
  have indn : ∀ l A : Nat, (0 : Int) ≤ if A = l then 1 else 0 := by intro l A; split <;> omega
  obtain ⟨s, hs, h⟩ := h
  rcases h with ⟨_, l, r, hlr, hr, _, _, hL⟩ | ⟨_, l, r, hlr, hr, _, _, hL⟩ | ⟨_, c, a, k, hk, _, hb, hc, ha, _, hL⟩
  · refine ⟨good s _ _ hs hL (fun A _ => ⟨indn l A, indn r A⟩), 1, by omega, ?_⟩
    rw [legs_numOps (by omega) hL, ind l (by omega), ind r (by omega)]; rfl
  · refine ⟨good s _ _ hs hL (fun A _ => ⟨indn r A, indn l A⟩), 1, by omega, ?_⟩
    rw [legs_numOps (by omega) hL, ind l (by omega), ind r (by omega)]; rfl
  · refine ⟨good s _ _ hs hL (fun A hA => ⟨(hb A hA).1, (hb A hA).2.2.1⟩), k, hk, ?_⟩
    rw [legs_numOps (by omega) hL, hc, ha]; omega

theorem good_ops {ns : Nat} {ops : OperatorProduct} (hv : ∀ p ∈ ops, p.Valid ns) : Good ns ops.length (ops.map Operator.gm) := by
  refine ⟨by simp, fun A hA t => ?_⟩
  have : gmAt (ops.map Operator.gm) A = ops[A].gm := by simp [gmAt, hA]
  rw [this]
  exact hv _ (List.getElem_mem hA) t

theorem gmAt_ops (ops : OperatorProduct) (A : Nat) (hA : A < ops.length) :
    gmAt (ops.map Operator.gm) A = (opAt ops A).gm := by simp [gmAt, opAt, hA]

theorem sumNumOps_totalOps {ns : Nat} {ops : OperatorProduct} (hv : ∀ p ∈ ops, p.Valid ns) (h8 : ns ≤ 8) :
    GraphMatrix.sumNumOps (ops.map Operator.gm) = totalOps ns ops := by
  rw [sumNumOps_range, totalOps, List.length_map]
  congr 1
  apply List.map_congr_left
  intro A hA
  have hA := List.mem_range.1 hA
  rw [numOps_range h8]
  · rw [gmAt_ops ops A hA]
  · intro t ht; exact ((good_ops hv).2 A hA t).2.2 ht

theorem sum_map_add_gen {β : Type _} (m : List β) (g h : β → Int) :
    (m.map (fun b => g b + h b)).sum = (m.map g).sum + (m.map h).sum := by
  induction m with
  | nil => simp
  | cons b m ih => simp only [List.map_cons, List.sum_cons, ih]; omega

theorem sum_list_comm {α β : Type _} (l : List α) (m : List β) (f : α → β → Int) :
    (l.map (fun a => (m.map (fun b => f a b)).sum)).sum = (m.map (fun b => (l.map (fun a => f a b)).sum)).sum := by
  induction l with
  | nil => simp
  | cons a l ih =>
    simp only [List.map_cons, List.sum_cons, ih]
    rw [sum_map_add_gen]

theorem uncontracted_eq {ns : Nat} {ops : OperatorProduct} (hv : ∀ p ∈ ops, p.Valid ns) (h8 : ns ≤ 8)
    (cs : List EContr) (hcs : ∀ e ∈ cs, Good ns ops.length e) :
    uncontracted ns ops cs = GraphMatrix.sumNumOps (ops.map Operator.gm) - (cs.map EContr.numOps).sum := by
  have h1 : ∀ e ∈ cs, e.numOps = ((List.range ops.length).map (fun A =>
      ((List.range ns).map (fun s => (gmAt e A).cre s + (gmAt e A).ann s)).sum)).sum := by
    intro e he
    unfold EContr.numOps
    rw [sumNumOps_range, (hcs e he).1]
    congr 1
    apply List.map_congr_left
    intro A hA
    exact numOps_range h8 _ (fun t ht => ((hcs e he).2 A (List.mem_range.1 hA) t).2.2 ht)
  rw [sumNumOps_totalOps hv h8, List.map_congr_left h1, sum_list_comm, totalOps, uncontracted, ← sum_map_sub]
  congr 1
  apply List.map_congr_left
  intro A _
  rw [sum_list_comm, ← sum_map_sub]
  congr 1
  apply List.map_congr_left
  intro s _
  have : (cs.map (fun e => (gmAt e A).cre s + (gmAt e A).ann s)).sum = takenCre cs A s + takenAnn cs A s := by
    unfold takenCre takenAnn
    induction cs with
    | nil => simp
    | cons e cs ih =>
      simp only [List.map_cons, List.sum_cons]
      rw [ih (fun x hx => hcs x (by simp [hx])) (fun x hx => h1 x (by simp [hx]))]; omega
  rw [this]; omega

theorem mem_comp_composite {ns : Nat} {ops : OperatorProduct} {el : List EContr} (hv : ∀ p ∈ ops, p.Valid ns) (h8 : ns ≤ 8)
    (hel : ∀ e ∈ el, Good ns ops.length e ∧ 2 ≤ e.numOps) (minr maxr : Int) (cv : List Int) :
    cv ∈ comp ns el minr maxr ((GraphMatrix.sumNumOps (ops.map Operator.gm)).toNat + 1) 0 (ops.map Operator.gm) ↔
      IsComposite ns ops el minr maxr cv := by
  have hg := good_ops hv
  have hnn := sumNumOps_nonneg hg
  rw [mem_comp hel minr maxr _ 0 _ (by omega) hg (by omega)]
  have hpick : ∀ cv : List Int, (cv.map (fun c => (elAt el c).numOps)).sum = ((pickAt el cv).map EContr.numOps).sum := by
    intro cv; unfold pickAt; rw [List.map_map]; rfl
  have legs1 : ∀ A s, legsCre el cv A s = takenCre (pickAt el cv) A s := by
    intro A s; unfold legsCre takenCre pickAt; rw [List.map_map]; rfl
  have legs2 : ∀ A s, legsAnn el cv A s = takenAnn (pickAt el cv) A s := by
    intro A s; unfold legsAnn takenAnn pickAt; rw [List.map_map]; rfl
  have hgood : (∀ c ∈ cv, 0 ≤ c ∧ c < el.length) → ∀ e ∈ pickAt el cv, Good ns ops.length e := by
    intro hr e he
    obtain ⟨c, hc, rfl⟩ := List.mem_map.1 he
    have := hr c hc
    exact (hel _ (elAt_mem (c := c) (by omega))).1
  constructor
  · rintro ⟨p1, p2, p3, p4⟩
    have hp := List.pairwise_cons.1 p1
    have hr : ∀ c ∈ cv, 0 ≤ c ∧ c < el.length := fun c hc => ⟨hp.1 c hc, p2 c hc⟩
    refine ⟨hp.2, hr, ?_, ?_⟩
    · intro A hA s hs
      have := p3 A hA s hs
      rw [legs1, legs2, gmAt_ops ops A hA] at this
      exact this
    · rw [uncontracted_eq hv h8 _ (hgood hr), ← hpick]; exact p4
  · rintro ⟨q1, q2, q3, q4⟩
    refine ⟨List.pairwise_cons.2 ⟨fun c hc => (q2 c hc).1, q1⟩, fun c hc => (q2 c hc).2, ?_, ?_⟩
    · intro A hA s hs
      rw [legs1, legs2, gmAt_ops ops A hA]
      exact q3 A hA s hs
    · rw [hpick, ← uncontracted_eq hv h8 _ (hgood q2)]; exact q4

theorem composite_spec {ns : Nat} {ops : OperatorProduct} {el : List EContr} (hv : ∀ p ∈ ops, p.Valid ns) (h8 : ns ≤ 8)
    (hel : ∀ e ∈ el, Good ns ops.length e ∧ 2 ≤ e.numOps) (minr maxr : Int) :
    (Shallow ns ops el → ∃ L, compositeContractions ns ops el minr maxr = .ok L ∧
      backtrack ns el minr maxr ((GraphMatrix.sumNumOps (ops.map Operator.gm)).toNat + 1) (List.replicate 100 (-1)) 0
        (ops.map Operator.gm) [] = .ok (ops.map Operator.gm, L) ∧
      L.Nodup ∧ ∀ cv, cv ∈ L ↔ IsComposite ns ops el minr maxr cv) ∧
    (¬ Shallow ns ops el → compositeContractions ns ops el minr maxr = .error .ub) := by
  have hg := good_ops hv
  have hnn := sumNumOps_nonneg hg
  obtain ⟨hb, hb'⟩ := backtrack_eq hel minr maxr (GraphMatrix.sumNumOps (ops.map Operator.gm)) ((GraphMatrix.sumNumOps (ops.map Operator.gm)).toNat + 1)
    (List.replicate 100 (-1)) 0 (ops.map Operator.gm) [] 0 (by simp) (by omega) hg (by omega) (le_refl _) (by omega)
    (by simp)
  have hD : Deep ns el (GraphMatrix.sumNumOps (ops.map Operator.gm)) ((GraphMatrix.sumNumOps (ops.map Operator.gm)).toNat + 1) 0 0 (ops.map Operator.gm) ↔
      Shallow ns ops el := by
    unfold Deep Shallow
    constructor
    · intro h minr maxr cv hcv
      have := h cv ((mem_comp_composite hv h8 hel _ _ cv).2 ⟨hcv.sorted, hcv.range, hcv.avail, ?_, ?_⟩)
      · omega
      · unfold uncontracted
        refine List.sum_nonneg ?_
        intro x hx
        obtain ⟨A, hA, rfl⟩ := List.mem_map.1 hx
        refine List.sum_nonneg ?_
        intro y hy
        obtain ⟨s, hs, rfl⟩ := List.mem_map.1 hy
        have := hcv.avail A (List.mem_range.1 hA) s (List.mem_range.1 hs)
        omega
      · have hgd : ∀ e ∈ pickAt el cv, Good ns ops.length e ∧ 2 ≤ e.numOps := by
          intro e he
          obtain ⟨c, hc, rfl⟩ := List.mem_map.1 he
          have := hcv.range c hc
          exact hel _ (elAt_mem (c := c) (by omega))
        rw [uncontracted_eq hv h8 _ (fun e he => (hgd e he).1)]
        have : 0 ≤ ((pickAt el cv).map EContr.numOps).sum := by
          refine List.sum_nonneg ?_
          intro x hx
          obtain ⟨e, he, rfl⟩ := List.mem_map.1 hx
          have := (hgd e he).2
          omega
        omega
    · intro h cv hcv
      have := h _ _ cv ((mem_comp_composite hv h8 hel _ _ cv).1 hcv)
      omega
  rw [hD] at hb hb'
  constructor
  · intro hS
    have hb := hb hS
    refine ⟨comp ns el minr maxr ((GraphMatrix.sumNumOps (ops.map Operator.gm)).toNat + 1) 0 (ops.map Operator.gm), ?_, ?_,
      comp_nodup minr maxr _ _ _, mem_comp_composite hv h8 hel minr maxr⟩
    · unfold compositeContractions; dsimp only
      rw [hb]; simp [bind, Except.bind, pure, Except.pure]
    · rw [hb]; simp
  · intro hS
    unfold compositeContractions; dsimp only
    rw [hb' hS]; simp [bind, Except.bind]

/-- a product of at most 201 operators is always shallow -/
theorem shallow_of_size {ns : Nat} {ops : OperatorProduct} {el : List EContr} (hv : ∀ p ∈ ops, p.Valid ns) (h8 : ns ≤ 8)
    (hel : ∀ e ∈ el, Good ns ops.length e ∧ 2 ≤ e.numOps) (hsz : totalOps ns ops ≤ 201) : Shallow ns ops el := by
  intro minr maxr cv hcv
  have hgd : ∀ e ∈ pickAt el cv, Good ns ops.length e ∧ 2 ≤ e.numOps := by
    intro e he
    obtain ⟨c, hc, rfl⟩ := List.mem_map.1 he
    have := hcv.range c hc
    exact hel _ (elAt_mem (c := c) (by omega))
  have h1 := uncontracted_eq hv h8 (pickAt el cv) (fun e he => (hgd e he).1)
  rw [sumNumOps_totalOps hv h8] at h1
  have h2 : 0 ≤ uncontracted ns ops (pickAt el cv) := by
    unfold uncontracted
    refine List.sum_nonneg ?_
    intro x hx
    obtain ⟨A, hA, rfl⟩ := List.mem_map.1 hx
    refine List.sum_nonneg ?_
    intro y hy
    obtain ⟨s, hs, rfl⟩ := List.mem_map.1 hy
    have := hcv.avail A (List.mem_range.1 hA) s (List.mem_range.1 hs)
    omega
  have h3 : ∀ l : List EContr, (∀ e ∈ l, 2 ≤ e.numOps) → 2 * (l.length : Int) ≤ (l.map EContr.numOps).sum := by
    intro l
    induction l with
    | nil => intro _; simp
    | cons e l ih =>
      intro h
      have := ih (fun x hx => h x (by simp [hx]))
      have := h e (by simp)
      simp only [List.map_cons, List.sum_cons, List.length_cons]
      push_cast; omega
  have h4 := h3 _ (fun e he => (hgd e he).2)
  have h5 : (pickAt el cv).length = cv.length := by simp [pickAt]
  omega

end Wick
end Wicked
