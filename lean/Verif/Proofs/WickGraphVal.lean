import Verif.Proofs.WickMatch
/-! The value of the term that `contract` computes for one pattern -/
namespace Wicked
open CppLt CppEq Rational
namespace Wick

theorem forall₂_perm_left {α β : Type _} {R : α → β → Prop} {l l' : List α} {m : List β} (h : List.Forall₂ R l m) (hp : l.Perm l') :
    ∃ m', m.Perm m' ∧ List.Forall₂ R l' m' := by
  have h1 : Relation.Comp List.Perm (List.Forall₂ (fun b a => R a b)) m l' := by
    rw [← List.forall₂_comp_perm_eq_perm_comp_forall₂]
    exact ⟨l, h.flip, hp⟩
  obtain ⟨m', a, b⟩ := h1
  exact ⟨m', a, b.flip⟩

/-- two operators of a pair block of a rearranged product were not exchanged -/
theorem pair_order {o : OSI} {ops : OperatorProduct} {cs : CContr} {p c : List Int} (hA : Admissible o.spaces.length ops cs (p, c))
    (hE : EvalList o ops cs) {e' : EContr} (he' : e' ∈ graphContr cs (p, c)) {b : Block} (hb : BlockOK o b) (hpat : BPat o.spaces.length e' b)
    (hsub : ∀ y ∈ b.flat, y ∈ slots o.spaces.length (graphOps ops (p, c))) {θ : Slot → Slot} (hθ : Renaming o.spaces.length ops p c θ)
    {y z : Slot} (hc : b.cre = [y]) (ha : b.ann = [z]) :
    (posZ (slots o.spaces.length (graphOps ops (p, c))) y < posZ (slots o.spaces.length (graphOps ops (p, c))) z ↔
      posZ (slots o.spaces.length ops) (θ y) < posZ (slots o.spaces.length ops) (θ z)) := by
  have hy := hsub y (by unfold Block.flat; simp [hc])
  have hz := hsub z (by unfold Block.flat; simp [ha])
  have hcy := (hb.cre y (by simp [hc])).1
  have haz := (hb.ann z (by simp [ha])).1
  rw [posZ_bef hy hz, posZ_bef (hθ.mem hy) (hθ.mem hz)]
  have ry := hθ.op hy
  have rz := hθ.op hz
  by_cases hop : y.op = z.op
  · exact bef_within rfl hop.symm ry.1 (by rw [rz.1, hop]) ry.2.1 rz.2.1 ry.2.2 rz.2.2 (Or.inr (by rw [hcy, haz]; simp))
  · -- different factors
    rw [(graphContr_perm hA.contr).mem_iff] at he'
    obtain ⟨e, he, rfl⟩ := List.mem_map.1 he'
    have hev := hE.ev e he
    have hn := evaluable_len hev
    have hyn : y.op < ops.length := by have := (mem_slots.1 hy).1; rwa [length_graphOps hA.ops] at this
    have hzn : z.op < ops.length := by have := (mem_slots.1 hz).1; rwa [length_graphOps hA.ops] at this
    have hne : pAt p y.op ≠ pAt p z.op := fun h => hop (pAt_inj hA.ops hyn hzn h)
    -- the numbers of legs
    have hfl : b.flat = [y, z] := by unfold Block.flat; rw [hc, ha]; rfl
    have hcount : ∀ k : Nat × Nat × Bool, k.1 < ops.length → elegs e (pcls p k) = [y.cls, z.cls].count k := by
      intro k hk
      rw [← elegs_row hA.ops hn hk, ← hpat.count, hfl]
      rfl
    have hnn := evaluable_nonneg hev
    have hPJ : PairJoined o.spaces.length cs (pAt p y.op) (pAt p z.op) := by
      have hys := (mem_slots.1 hy).2.1
      have hzs := (mem_slots.1 hz).2.1
      have pos : ∀ A s, A < ops.length → s < o.spaces.length → (0 < (gmAt e A).cre s ∨ 0 < (gmAt e A).ann s) → 0 < legsAt o.spaces.length e A := by
        intro A s hA' hs h
        unfold legsAt
        have hge : ∀ t ∈ List.range o.spaces.length, 0 ≤ (gmAt e A).cre t + (gmAt e A).ann t := fun t _ => by have := hnn A hA' t; omega
        have : (gmAt e A).cre s + (gmAt e A).ann s ≤ ((List.range o.spaces.length).map (fun s => (gmAt e A).cre s + (gmAt e A).ann s)).sum := by
          apply List.single_le_sum
          · intro x hx
            obtain ⟨t, ht, rfl⟩ := List.mem_map.1 hx
            exact hge t ht
          · exact List.mem_map.2 ⟨s, List.mem_range.2 hs, rfl⟩
        have := hnn A hA' s
        omega
      refine ⟨e, he, ?_, ?_, ?_⟩
      · -- two legs altogether
        have h2 : elegs e (pcls p y.cls) = 1 := by
          rw [hcount _ hyn, List.count_cons_self, List.count_cons_of_ne, List.count_nil]
          intro h; exact hop (congrArg Prod.fst h).symm
        have hlen : (b.flat.length : Int) = 2 := by rw [hfl]; rfl
        obtain ⟨s, cc, aa, kk, hs, hLg, hcn, hcs, has, hk, _⟩ := hev
        have hsum : ((List.range e.length).map (legsAt o.spaces.length e)).sum = 2 * kk := by
          have h3 : (List.range e.length).map (legsAt o.spaces.length e) = (List.range ops.length).map (fun A => cc A + aa A) := by
            rw [hn]
            apply List.map_congr_left
            intro A hA'
            have hA' := List.mem_range.1 hA'
            unfold legsAt
            have h4 : (List.range o.spaces.length).map (fun t => (gmAt e A).cre t + (gmAt e A).ann t) =
                (List.range o.spaces.length).map (fun t => if t = s then cc A + aa A else 0) := by
              apply List.map_congr_left
              intro t _
              rw [(hLg.2 A hA' t).1, (hLg.2 A hA' t).2]
              split <;> simp
            rw [h4]
            have := sum_range_ite o.spaces.length s (fun _ => cc A + aa A)
            rw [this, if_pos hs]
          rw [h3, sum_map_add_gen, hcs, has]; ring
        rw [hsum]
        -- kk = 1 from the creation legs
        have hk1 : kk = 1 := by
          have h5 : ((List.range ops.length).map (fun A => cc (pAt p A))).sum = kk := by rw [(perm_pAt hA.ops cc).sum_eq, hcs]
          have h6 : ∀ A < ops.length, cc (pAt p A) = if A = y.op then 1 else 0 := by
            intro A hA'
            have h7 := hcount (A, s, true) hA'
            have h8 : (elegs e (pcls p (A, s, true)) : Int) = cc (pAt p A) := by
              unfold elegs pcls
              simp only [if_true]
              rw [(hLg.2 _ (pAt_lt hA.ops hA') s).1, if_pos rfl, Int.toNat_of_nonneg (hcn _ (pAt_lt hA.ops hA')).1]
            rw [← h8, h7]
            have hys' : y.space = s := by
              have := hpat.space
              rw [espace_row hA.ops (hE.ev e he), (legs_spaces hs hLg hcn (by omega)).2] at this
              rw [← this]; exact (hb.cre y (by simp [hc])).2
            have e1 : y.cls = (y.op, s, true) := by unfold Slot.cls; rw [hys', hcy]
            have e2 : z.cls = (z.op, z.space, false) := by unfold Slot.cls; rw [haz]
            rw [e1, e2]
            by_cases hAy : A = y.op
            · simp [hAy]
            · simp [hAy, Ne.symm hAy]
          have h9 : (List.range ops.length).map (fun A => cc (pAt p A)) = (List.range ops.length).map (fun A => if A = y.op then 1 else 0) :=
            List.map_congr_left (fun A hA' => h6 A (List.mem_range.1 hA'))
          rw [h9, sum_ind _ _ hyn] at h5
          exact h5.symm
        rw [hk1]; rfl
      · refine pos _ y.space (pAt_lt hA.ops hyn) hys (Or.inl ?_)
        have h2 := hcount y.cls hyn
        rw [List.count_cons_self] at h2
        unfold elegs pcls Slot.cls at h2
        simp only [hcy, if_true] at h2
        omega
      · refine pos _ z.space (pAt_lt hA.ops hzn) hzs (Or.inr ?_)
        have h2 := hcount z.cls hzn
        rw [List.count_cons, List.count_cons_self] at h2
        unfold elegs pcls at h2
        rw [show z.cls.2.2 = false from haz] at h2
        simp only [Bool.false_eq_true, if_false] at h2
        have : z.cls.1 = z.op ∧ z.cls.2.1 = z.space := ⟨rfl, rfl⟩
        rw [this.1, this.2] at h2
        omega
    -- not exchanged
    have hpj : ∀ i j, i < j → j < ops.length → pAt p j < pAt p i → Exchanged p ((pAt p i : Nat) : Int) ((pAt p j : Nat) : Int) := by
      intro i j hij hj hlt
      refine ⟨?_, by exact_mod_cast hlt⟩
      have hpl : p.length = ops.length := by have := hA.ops.length_eq; simpa using this
      have hget : ∀ i, i < ops.length → p[i]? = some ((pAt p i : Nat) : Int) := by
        intro i hi
        rw [List.getElem?_eq_getElem (by omega)]
        congr 1
        have hm : p[i] ∈ p := List.getElem_mem _
        obtain ⟨q, _, hq⟩ := List.mem_map.1 (hA.ops.mem_iff.1 hm)
        unfold pAt
        rw [List.getD_eq_getElem?_getD, List.getElem?_eq_getElem (by omega)]
        simp only [Option.getD_some]
        rw [← hq]; simp
      have m1 : ((pAt p i : Nat) : Int) ∈ p.take j := by
        have := hget i (by omega)
        exact List.mem_of_getElem? (i := i) (by rw [List.getElem?_take, if_pos hij, this])
      have m2 : ((pAt p j : Nat) : Int) ∈ p.drop j := by
        have := hget j hj
        exact List.mem_of_getElem? (i := 0) (by rw [List.getElem?_drop]; simpa using this)
      have := (List.singleton_sublist.2 m1).append (List.singleton_sublist.2 m2)
      rw [List.take_append_drop] at this
      exact this
    have hb1 : Slot.Bef y z ↔ y.op < z.op := by
      unfold Slot.Bef
      constructor
      · rintro (h | h)
        · exact h
        · exact absurd h.1 hop
      · exact Or.inl
    have hb2 : Slot.Bef (θ y) (θ z) ↔ pAt p y.op < pAt p z.op := by
      unfold Slot.Bef
      rw [ry.1, rz.1]
      constructor
      · rintro (h | h)
        · exact h
        · exact absurd h.1 hne
      · exact Or.inl
    rw [hb1, hb2]
    constructor
    · intro hlt
      by_contra hge
      exact hA.exch _ _ (hpj _ _ hlt hzn (by omega)) (by simpa using hPJ)
    · intro hlt
      by_contra hge
      have hPJ' : PairJoined o.spaces.length cs (pAt p z.op) (pAt p y.op) := by
        obtain ⟨e, h1, h2, h3, h4⟩ := hPJ
        exact ⟨e, h1, h2, h4, h3⟩
      exact hA.exch _ _ (hpj _ _ (by omega) hyn hlt) (by simpa using hPJ')

section
variable {Ω R A : Type} [Inhabited Ω] [DecidableEq Ω] [CommRing R] [Ring A] [Algebra R A]

/-- **every listing with the numbers of legs of `cs` has the value of the term computed for `cs`** -/
theorem graph_value {o : OSI} {ops : OperatorProduct} {cs : CContr} {p c : List Int} (h8 : o.spaces.length ≤ 8)
    (hvo : ∀ q ∈ ops, q.Valid o.spaces.length) (hA : Admissible o.spaces.length ops cs (p, c)) (hE : EvalList o ops cs)
    {bs bs1 : List Block} {rs : List Slot} (hl : IsListing o ops bs rs) (hb1 : bs.Perm bs1) (hpat : List.Forall₂ (BPat o.spaces.length) cs bs1)
    {v : OrbSystem Ω R A} (hv : v.Antisymmetric) (hac : v.Anticommute) :
    sumOver (slots o.spaces.length ops).toFinset (fun y => v.dom y.space) (fun x =>
        opElements v o.spaces.length ops x • listVal v o (slots o.spaces.length ops) x bs rs) =
      ((exchangeSign (fun i => (opAt ops i.toNat).numOps) p : Int) : R) •
        (((listSign o (graphOps ops (p, c)) (blocksOf o (graphOps ops (p, c)) (graphContr cs (p, c))) (restOps o (graphOps ops (p, c)) (graphContr cs (p, c))) : Int) : R) •
          v.value (listTerm o (graphOps ops (p, c)) (blocksOf o (graphOps ops (p, c)) (graphContr cs (p, c))) (restOps o (graphOps ops (p, c)) (graphContr cs (p, c))))) := by
  have hE' : EvalList o (graphOps ops (p, c)) (graphContr cs (p, c)) := evalList_graph hE hA.ops hA.contr
  obtain ⟨hl', _⟩ := evalCore_listing h8 hE'
  have hpat' : List.Forall₂ (BPat o.spaces.length) (graphContr cs (p, c)) (blocksOf o (graphOps ops (p, c)) (graphContr cs (p, c))) :=
    bpat_blocks _ [] hE'.ev
  generalize blocksOf o (graphOps ops (p, c)) (graphContr cs (p, c)) = bs' at *
  generalize restOps o (graphOps ops (p, c)) (graphContr cs (p, c)) = rs' at *
  rw [listTerm_value hl' v]
  -- match the blocks
  have h1 : List.Forall₂ (fun e' b => ∃ e ∈ cs, e' = p.map (fun i => gmAt e i.toNat) ∧ BPat o.spaces.length e b)
      (cs.map (fun e => p.map (fun i => gmAt e i.toNat))) bs1 := by
    rw [List.forall₂_map_left_iff]
    have : ∀ {l : List EContr} {m : List Block}, List.Forall₂ (BPat o.spaces.length) l m → (∀ e ∈ l, e ∈ cs) →
        List.Forall₂ (fun e b => ∃ e1 ∈ cs, p.map (fun i => gmAt e i.toNat) = p.map (fun i => gmAt e1 i.toNat) ∧ BPat o.spaces.length e1 b) l m := by
      intro l m h
      induction h with
      | nil => intro _; exact .nil
      | cons a _ ih => intro hm; exact .cons ⟨_, hm _ (by simp), rfl, a⟩ (ih (fun e he => hm e (by simp [he])))
    exact this hpat (fun e he => he)
  obtain ⟨bs2, hb2, h2⟩ := forall₂_perm_left h1 (graphContr_perm hA.contr).symm
  have hok1 : ∀ b ∈ bs2, BlockOK o b := fun b hb => hl.blocks b (hb1.mem_iff.2 (hb2.mem_iff.2 hb))
  have hop' : ∀ b ∈ bs', ∀ y ∈ b.flat, y ∈ slots o.spaces.length (graphOps ops (p, c)) := fun b hb y hy => mem_slots_block hl' hb hy
  have h3 : List.Forall₂ (BMatch p) bs' bs2 := by
    have : ∀ {l : List EContr} {m m2 : List Block}, List.Forall₂ (BPat o.spaces.length) l m →
        List.Forall₂ (fun e' b => ∃ e ∈ cs, e' = p.map (fun i => gmAt e i.toNat) ∧ BPat o.spaces.length e b) l m2 →
        (∀ b ∈ m, b ∈ bs') → (∀ b ∈ m2, b ∈ bs2) → List.Forall₂ (BMatch p) m m2 := by
      intro l m m2 h
      induction h generalizing m2 with
      | nil => intro h _ _; cases h; exact .nil
      | @cons e' b' l m a _ ih =>
        intro h hm hm2
        cases h with
        | @cons _ b _ m2 q1 q2 =>
        obtain ⟨e, he, rfl, hb⟩ := q1
        refine .cons ?_ (ih q2 (fun b hb => hm b (by simp [hb])) (fun b hb => hm2 b (by simp [hb])))
        refine bmatch_of_pat hA.ops (hE.ev e he) (hok1 b (hm2 b (by simp))) (hl'.blocks b' (hm b' (by simp))) ?_ hb a
        intro y hy
        have := (mem_slots.1 (hop' b' (hm b' (by simp)) y hy)).1
        rwa [length_graphOps hA.ops] at this
    exact this hpat' h2 (fun b hb => hb) (fun b hb => hb)
  obtain ⟨θ, hθ, hsame⟩ := exists_renaming hA.ops hl' hl (hb1.trans hb2) h3
  rw [← hθ.value rfl h8 hvo hA.ops hv hl']
  · apply sumOver_congr
    intro x _
    rw [listVal_inv hv hac hl.blocks (listing_nodup hl) (fun y hy => hl.perm.mem_iff.1 hy) hsame x]
  · intro b hb y z hc ha
    obtain ⟨e', he', hpe⟩ : ∃ e' ∈ graphContr cs (p, c), BPat o.spaces.length e' b := by
      exact forall₂_right hpat' b hb
    exact pair_order hA hE he' (hl'.blocks b hb) hpe (hop' b hb) hθ hc ha

end
end Wick
end Wicked
