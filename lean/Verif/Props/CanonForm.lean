import Verif.Proofs.CanonIdem
/-! # C64: `SymbolicTerm::canonicalize` as a choice of representatives -/
namespace Wicked
open CppLt CppEq STerm

theorem sorted_rename {o : OSI} {ρ : Index → Index} {ts ts' : List Tensor} (hp : ts'.Perm (ts.map (Tensor.rename ρ))) (hρ : Renaming ρ ts)
    (hD : Dist ts) {scores scores' : List STerm.Score}
    (h : ts.mapM (m := Except Fault) (STerm.score o ts) = .ok scores) (h' : ts'.mapM (m := Except Fault) (STerm.score o ts') = .ok scores') :
    (stdSort scores').map (fun s => s.2.2.2.2.2.2) = ((stdSort scores).map (fun s => s.2.2.2.2.2.2)).map (Tensor.rename ρ) := by
  have hF : List.Forall₂ (Alike ρ) ts (ts.map (Tensor.rename ρ)) := by
    rw [List.forall₂_map_right_iff]
    exact List.forall₂_same.2 (fun x _ => ⟨rfl, List.Perm.refl _, List.Perm.refl _⟩)
  have hS := sig_alike hF hp hρ
  rw [List.forall₂_map_right_iff, List.forall₂_same] at hS
  have hA := sorted_alike hF hp hρ hD h h'
  have key : List.Forall₂ (fun x y => y = Tensor.rename ρ x) ((stdSort scores).map (fun s => s.2.2.2.2.2.2)) ((stdSort scores').map (fun s => s.2.2.2.2.2.2)) := by
    refine hA.imp ?_
    rintro x y ⟨hx, hy, hxy, hsig, hlast⟩
    obtain ⟨z, hz, rfl⟩ := List.mem_map.1 hy
    rw [hlast z hz _ hy (hS z hz).1 (hS z hz).2 rfl]
  generalize (stdSort scores).map (fun s => s.2.2.2.2.2.2) = L at key
  generalize (stdSort scores').map (fun s => s.2.2.2.2.2.2) = L' at key
  induction key with
  | nil => rfl
  | cons h1 _ ih => rw [h1, ih]; rfl

/-- **C64 (partial: the tensors can be told apart without names)**  If no two tensors of a term have the same signature, and every operator
index occurs in a tensor, then `canonicalize` gives the same term for every renaming of the indices (within their spaces) and every order of the
tensors and operators; the factor is the same when the operators come in the same order, and otherwise the same up to sign.
Missing: terms with indistinguishable tensors, for which it is false (`C64_not_canonical`). -/
theorem C64_representative_partial {o : OSI} {ρ : Index → Index} {t t' r : STerm} {f : Rational} (hc : t.Covered) (hd : t.Distinguishable)
    (hsp : ∀ i ∈ t.allIdx, (ρ i).space = i.space) (hinj : ∀ i ∈ t.allIdx, ∀ j ∈ t.allIdx, ρ i = ρ j → i = j)
    (hs : t.SameUpToNames ρ t') (h : t.canonicalize o = .ok (r, f)) :
    (t'.ops = t.ops.map (fun a => ⟨a.type, ρ a.index⟩) → t'.canonicalize o = .ok (r, f)) ∧
    ∃ f', t'.canonicalize o = .ok (r, f') ∧ (f' = f ∨ f' = Rational.neg f) := by
  have memT : ∀ x ∈ t.tensors, ∀ i ∈ x.lower ++ x.upper, i ∈ t.allIdx := fun x hx i hi =>
    List.mem_append_right _ (List.mem_flatMap.2 ⟨x, hx, hi⟩)
  have memO : ∀ a ∈ t.ops, a.index ∈ t.allIdx := fun a ha => List.mem_append_left _ (List.mem_map_of_mem ha)
  have hρ : Renaming ρ t.tensors := ⟨fun x hx i hi => hsp i (memT x hx i hi), fun x hx i hi y hy j hj => hinj i (memT x hx i hi) j (memT y hy j hj)⟩
  obtain ⟨scores, tc, st, ts, h1, h2, h3, h4, h5, h6, h7⟩ := canonicalize_inv h
  have hreg : ∀ x ∈ t.tensors, ∀ i ∈ x.lower ++ x.upper, i.Registered o := by
    intro x hx
    obtain ⟨s, hs, hsx⟩ := Wick.forall₂_right (List.Forall₂.flip ((mapM_ok_iff _ _ _).1 h1)) x hx
    exact (score_sig (dist_noEq hd) hx hsx).2.2
  obtain ⟨scores', h1'⟩ := mapM_ok_of (STerm.score o t'.tensors) t'.tensors (by
    intro y hy
    apply score_ok
    obtain ⟨x, hx, rfl⟩ := List.mem_map.1 (hs.tensors.subset hy)
    intro j hj
    have : ∃ i ∈ x.lower ++ x.upper, ρ i = j := by
      simp only [Tensor.rename, ← List.map_append] at hj
      exact List.mem_map.1 hj
    obtain ⟨i, hi, rfl⟩ := this
    have := hreg x hx i hi
    unfold Index.Registered at this ⊢
    rwa [hρ.space x hx i hi])
  have hT := sorted_rename hs.tensors hρ hd h1 h1'
  have hspaces : Multiset.map (fun a : SQOp => a.index.space) (t'.ops : Multiset SQOp) = Multiset.map (fun a : SQOp => a.index.space) (t.ops : Multiset SQOp) := by
    rw [Multiset.coe_eq_coe.2 hs.ops, ← Multiset.map_coe, Multiset.map_map]
    exact Multiset.map_congr rfl (fun a ha => hsp _ (memO a ha))
  obtain ⟨tc', h2'⟩ := foldIncr_ok (fun a : SQOp => a.index.space) t'.ops (List.replicate o.spaces.length 0) (by
    intro a ha
    have h := (foldIncr_list (g := fun a : SQOp => a.index.space) h2).2
    rw [← hspaces] at h
    rw [List.length_replicate]
    exact h _ (Multiset.mem_map_of_mem _ ha))
  have htc : tc' = tc := by
    rw [(foldIncr_list (g := fun a : SQOp => a.index.space) h2).1, (foldIncr_list (g := fun a : SQOp => a.index.space) h2').1, hspaces]
  subst htc
  have hsc := scores_map ((mapM_ok_iff _ _ _).1 h1)
  have hperm : ((stdSort scores).map (fun s : STerm.Score => s.2.2.2.2.2.2)).Perm t.tensors := by
    have := (stdSort_perm scores).map (fun s : STerm.Score => s.2.2.2.2.2.2)
    rwa [hsc] at this
  generalize hTdef : (stdSort scores).map (fun s : STerm.Score => s.2.2.2.2.2.2) = T at *
  have memD : ∀ i ∈ t.tensors.flatMap (fun x => x.lower ++ x.upper), i ∈ t.allIdx := fun i hi => List.mem_append_right _ hi
  have hmap : (T.map (Tensor.rename ρ)).flatMap (fun x => x.lower ++ x.upper) = (T.flatMap (fun x => x.lower ++ x.upper)).map ρ := by
    rw [List.flatMap_map, List.map_flatMap]
    simp only [Tensor.rename, List.map_append]
  obtain ⟨st', h3', hm⟩ := relabel_rename (ρ := ρ) (opIdx := t.ops.map SQOp.index) (opIdx' := t'.ops.map SQOp.index)
    (D := t.tensors.flatMap (fun x => x.lower ++ x.upper)) (fun i hi j hj => hinj i (memD i hi) j (memD j hj)) (fun i hi => hsp i (memD i hi)) (by
      intro i hi
      rw [(hs.ops.map SQOp.index).mem_iff]
      simp only [List.map_map, List.mem_map, Function.comp]
      constructor
      · rintro ⟨a, ha, e⟩
        exact ⟨a, ha, hinj _ (memO a ha) _ (memD i hi) e⟩
      · rintro ⟨a, ha, rfl⟩
        exact ⟨a, ha, rfl⟩) (T.flatMap (fun x => x.lower ++ x.upper)) (fun i hi => (hperm.flatMap_right _).subset hi)
    ⟨List.replicate o.spaces.length 0, tc', []⟩ ⟨List.replicate o.spaces.length 0, tc', []⟩ st
    ⟨List.Pairwise.nil, List.Pairwise.nil, rfl, rfl, fun _ _ => rfl⟩ h3
  have happ : ∀ i ∈ t.tensors.flatMap (fun x => x.lower ++ x.upper), applyMap st'.map (ρ i) = applyMap st.map i := by
    intro i hi
    have hlen := (foldIncr_spec (fun a : SQOp => a.index.space) t.ops _ tc' h2).1
    rw [List.length_replicate] at hlen
    obtain ⟨r1, _, r3, _⟩ := rinv_fold (opIdx := t.ops.map SQOp.index) (n := o.spaces.length) (tc0 := tc') _ _ st
      (rinv_init _ _ tc' hlen) h3
    obtain ⟨v, hv⟩ := r3 i ((hperm.flatMap_right _).symm.subset hi)
    have e := SMap.find_of_mem r1.srt hv
    have e' := hm.find i hi
    dsimp only at e
    unfold applyMap
    rw [e', e]
    rfl
  rw [← hmap, ← hT] at h3'
  have h4' : ((T.map (Tensor.rename ρ)).map (Tensor.reindex st'.map)) = T.map (Tensor.reindex st.map) := by
    rw [List.map_map]
    apply List.map_congr_left
    intro x hx
    have hxi : ∀ i ∈ x.lower ++ x.upper, applyMap st'.map (ρ i) = applyMap st.map i := fun i hi =>
      happ i (List.mem_flatMap.2 ⟨x, hperm.subset hx, hi⟩)
    simp only [Function.comp, Tensor.rename, Tensor.reindex, List.map_map]
    congr 1
    · exact List.map_congr_left (fun i hi => hxi i (List.mem_append_left _ hi))
    · exact List.map_congr_left (fun i hi => hxi i (List.mem_append_right _ hi))
  have hops : (t.ops.map (fun a => (⟨a.type, ρ a.index⟩ : SQOp))).map (SQOp.reindex st'.map) = t.ops.map (SQOp.reindex st.map) := by
    rw [List.map_map]
    apply List.map_congr_left
    intro a ha
    obtain ⟨x, hx, hi⟩ := hc a ha
    simp only [Function.comp, SQOp.reindex]
    rw [happ a.index (List.mem_flatMap.2 ⟨x, hx, hi⟩)]
  rw [← h4', ← hT] at h4
  have hres := canonicalize_of h1' h2' h3' h4 h5
  have hpo : (t'.ops.map (SQOp.reindex st'.map)).Perm (t.ops.map (SQOp.reindex st.map)) := by
    rw [← hops]
    exact hs.ops.map _
  constructor
  · intro he
    rw [hres, h6, h7, he, hops, hs.flag]
  · rw [hres]
    refine ⟨_, by rw [h6, canonicalizeSqops_perm hpo, hs.flag], ?_⟩
    obtain ⟨s, hs1, es⟩ := foldSign ((mapM_ok_iff _ _ _).1 h4) 1 (Or.inl rfl)
    rw [h7, es, ofInt_mul_signs hs1 (sqopsSign _), ofInt_mul_signs hs1 (sqopsSign _)]
    rcases hs1 with rfl | rfl <;> rcases sqopsSign (t.ops.map (SQOp.reindex st.map)) with e1 | e1 <;>
      rcases sqopsSign (t'.ops.map (SQOp.reindex st'.map)) with e2 | e2 <;> rw [e1, e2] <;> decide

theorem sorted_self {o : OSI} {ρ : Index → Index} {ts T ts' : List Tensor} (hperm : T.Perm ts) (hF : List.Forall₂ (Alike ρ) T ts') (hρ : Renaming ρ ts)
    (hD : Dist ts) {scores scores' : List STerm.Score} (hT : (stdSort scores).map (fun s => s.2.2.2.2.2.2) = T)
    (h : ts.mapM (m := Except Fault) (STerm.score o ts) = .ok scores) (h' : ts'.mapM (m := Except Fault) (STerm.score o ts') = .ok scores') :
    (stdSort scores').map (fun s => s.2.2.2.2.2.2) = ts' := by
  obtain ⟨l, hl1, hl2⟩ : ∃ l, List.Forall₂ (Alike ρ) ts l ∧ l.Perm ts' := by
    have h0 : Relation.Comp List.Perm (List.Forall₂ (Alike ρ)) ts ts' := ⟨T, hperm.symm, hF⟩
    rw [← List.forall₂_comp_perm_eq_perm_comp_forall₂] at h0
    exact h0
  have hA := sorted_alike hl1 hl2.symm hρ hD h h'
  rw [hT] at hA
  have hρT : Renaming ρ T := ⟨fun x hx => hρ.space x (hperm.subset hx), fun x hx i hi y hy => hρ.inj x (hperm.subset hx) i hi y (hperm.subset hy)⟩
  have hS := sig_alike hF (List.Perm.refl _) hρT
  have hD' := dist_nodup.1 (dist_alike hl1 hl2.symm hρ hD)
  have e1 : ((stdSort scores').map (fun s => s.2.2.2.2.2.2)).map (tensorSig ts') = T.map (tensorSig ts) :=
    forall₂_map_eq hA (fun _ _ _ _ hR => hR.2.2.2.1)
  have e2 : ts'.map (tensorSig ts') = T.map (tensorSig ts) :=
    forall₂_map_eq hS (fun x _ _ _ hR => by rw [hR.2, tensorSig_perm hperm])
  have hmem : ∀ y ∈ (stdSort scores').map (fun s => s.2.2.2.2.2.2), y ∈ ts' := by
    intro y hy
    obtain ⟨x, _, hR⟩ := Wick.forall₂_right hA y hy
    exact hl2.subset hR.2.1
  have e : ((stdSort scores').map (fun s => s.2.2.2.2.2.2)).map (tensorSig ts') = ts'.map (tensorSig ts') := e1.trans e2.symm
  generalize (stdSort scores').map (fun s => s.2.2.2.2.2.2) = L at e hmem
  have hlen : L.length = ts'.length := by simpa using congrArg List.length e
  apply List.ext_getElem hlen
  intro k h1 h2
  apply List.inj_on_of_nodup_map hD' (hmem _ (List.getElem_mem h1)) (List.getElem_mem h2)
  have := congrArg (fun l => l[k]?) e
  simpa [h1, h2] using this

theorem mapM_fixed : ∀ (ts : List Tensor), (∀ x ∈ ts, x.canonicalize = .ok (x, Rational.ofInt 1)) →
    ts.mapM (m := Except Fault) Tensor.canonicalize = .ok (ts.map (fun x => (x, Rational.ofInt 1))) := by
  intro ts
  induction ts with
  | nil => intro _; rfl
  | cons x ts ih =>
    intro h
    rw [List.mapM_cons, h x (by simp), ih (fun y hy => h y (by simp [hy]))]
    rfl

theorem applyMap_ident {m : IndexMap} (h : ∀ p ∈ m, p.2 = p.1) (i : Index) : applyMap m i = i := by
  unfold applyMap
  cases hf : SMap.find i m with
  | none => rfl
  | some v =>
    obtain ⟨p, hp, he, rfl⟩ := SMap.find_some_mem hf
    rw [eqv_eq] at he; subst he
    exact h p hp

set_option maxHeartbeats 1000000 in
/-- **C64 (partial: the tensors can be told apart without names)**  Under the same hypotheses the canonical term is a fixed point: a second
call changes nothing and returns the factor 1.  Missing: terms with indistinguishable tensors (`C64_not_idempotent`). -/
theorem C64_idempotent_partial {o : OSI} {t t' : STerm} {f : Rational} (hc : t.Covered) (hd : t.Distinguishable) (h : t.canonicalize o = .ok (t', f)) :
    t'.canonicalize o = .ok (t', Rational.ofInt 1) := by
  obtain ⟨scores, tc, st, ts, h1, h2, h3, h4, h5, h6, h7⟩ := canonicalize_inv h
  have hreg : ∀ x ∈ t.tensors, ∀ i ∈ x.lower ++ x.upper, i.Registered o := by
    intro x hx
    obtain ⟨s, hs, hsx⟩ := Wick.forall₂_right (List.Forall₂.flip ((mapM_ok_iff _ _ _).1 h1)) x hx
    exact (score_sig (dist_noEq hd) hx hsx).2.2
  have hsc := scores_map ((mapM_ok_iff _ _ _).1 h1)
  have hperm : ((stdSort scores).map (fun s : STerm.Score => s.2.2.2.2.2.2)).Perm t.tensors := by
    have := (stdSort_perm scores).map (fun s : STerm.Score => s.2.2.2.2.2.2)
    rwa [hsc] at this
  generalize hTdef : (stdSort scores).map (fun s : STerm.Score => s.2.2.2.2.2.2) = T at *
  obtain ⟨c1, c2, c3⟩ := foldIncr_spec (fun a : SQOp => a.index.space) t.ops _ tc h2
  rw [List.length_replicate] at c1
  have htc : ∀ s, 0 ≤ s → cnt tc s = (((t.ops.map SQOp.index).filter (fun i => decide (i.space = s))).length : Int) := by
    intro s hs
    rw [c3 s hs, cnt_zero, List.filter_map, List.length_map, zero_add]; rfl
  have rinit := rinv_init (t.ops.map SQOp.index) o.spaces.length tc c1
  obtain ⟨r1, r2, r3, r4⟩ := rinv_fold _ _ st rinit h3
  have hinj := rinv_injective htc r1
  have hkey : ∀ i ∈ t.tensors.flatMap (fun x => x.lower ++ x.upper), ∃ v, (i, v) ∈ st.map := fun i hi =>
    r3 i ((hperm.flatMap_right _).symm.subset hi)
  have hρinj : ∀ i ∈ t.tensors.flatMap (fun x => x.lower ++ x.upper), ∀ j ∈ t.tensors.flatMap (fun x => x.lower ++ x.upper),
      applyMap st.map i = applyMap st.map j → i = j := by
    intro i hi j hj he
    obtain ⟨v, hv⟩ := hkey i hi
    obtain ⟨w, hw⟩ := hkey j hj
    rw [applyMap_mem r1.srt hv, applyMap_mem r1.srt hw] at he
    exact hinj _ hv _ hw he
  have hρsp : ∀ i ∈ t.tensors.flatMap (fun x => x.lower ++ x.upper), (applyMap st.map i).space = i.space := by
    intro i hi
    obtain ⟨v, hv⟩ := hkey i hi
    rw [applyMap_mem r1.srt hv]
    exact (r1.space _ hv).1
  have memF : ∀ x ∈ t.tensors, ∀ i ∈ x.lower ++ x.upper, i ∈ t.tensors.flatMap (fun x => x.lower ++ x.upper) := fun x hx i hi =>
    List.mem_flatMap.2 ⟨x, hx, hi⟩
  have hρ : Renaming (applyMap st.map) t.tensors := ⟨fun x hx i hi => hρsp i (memF x hx i hi), fun x hx i hi y hy j hj => hρinj i (memF x hx i hi) j (memF y hy j hj)⟩
  -- the tensors of the result
  have hcan : List.Forall₂ (fun x y => Alike (applyMap st.map) x y ∧ y.canonicalize = .ok (y, Rational.ofInt 1) ∧
      (y.lower.Perm (x.reindex st.map).lower ∧ y.upper.Perm (x.reindex st.map).upper ∧
        y.lower.Pairwise (fun a b => Index.lt b a = false) ∧ y.upper.Pairwise (fun a b => Index.lt b a = false))) T (ts.map Prod.fst) := by
    have hf := (mapM_ok_iff _ _ _).1 h4
    rw [List.forall₂_map_left_iff] at hf
    rw [List.forall₂_map_right_iff]
    refine hf.imp ?_
    intro x y hxy
    by_cases hn : (x.reindex st.map).symm = .nonsymmetric
    · rw [(C17_tensor_canonicalize _).1 hn] at hxy; cases hxy
    obtain ⟨t', s, e, hs, hl, _, _, pu, pl, su, sl, _, _, hfix⟩ := (C17_tensor_canonicalize (x.reindex st.map)).2 hn
    rw [e] at hxy; cases hxy
    exact ⟨⟨hl, pl, pu⟩, hfix, pl, pu, sl, su⟩
  have ht' : t'.tensors = ts.map Prod.fst := by rw [h6]
  have hAl : List.Forall₂ (Alike (applyMap st.map)) T (ts.map Prod.fst) := hcan.imp (fun _ _ h => h.1)
  -- registered
  have memR : ∀ y ∈ ts.map Prod.fst, ∀ j ∈ y.lower ++ y.upper, ∃ i ∈ t.tensors.flatMap (fun x => x.lower ++ x.upper), j = applyMap st.map i := by
    intro y hy j hj
    obtain ⟨x, hx, hR⟩ := Wick.forall₂_right hAl y hy
    rcases List.mem_append.1 hj with hj | hj
    · obtain ⟨i, hi, rfl⟩ := List.mem_map.1 (hR.2.1.subset hj)
      exact ⟨i, memF x (hperm.subset hx) i (List.mem_append_left _ hi), rfl⟩
    · obtain ⟨i, hi, rfl⟩ := List.mem_map.1 (hR.2.2.subset hj)
      exact ⟨i, memF x (hperm.subset hx) i (List.mem_append_right _ hi), rfl⟩
  have hregF : ∀ i ∈ t.tensors.flatMap (fun x => x.lower ++ x.upper), i.Registered o := by
    intro i hi
    obtain ⟨x, hx, hi⟩ := List.mem_flatMap.1 hi
    exact hreg x hx i hi
  have hreg' : ∀ y ∈ ts.map Prod.fst, ∀ j ∈ y.lower ++ y.upper, j.Registered o := by
    intro y hy j hj
    obtain ⟨i, hi, rfl⟩ := memR y hy j hj
    have := hregF i hi
    unfold Index.Registered at this ⊢
    rwa [hρsp i hi]
  obtain ⟨scores', h1'⟩ := mapM_ok_of (STerm.score o (ts.map Prod.fst)) (ts.map Prod.fst) (fun y hy => score_ok (hreg' y hy))
  have hT' := sorted_self hperm hAl hρ hd hTdef h1 h1'
  -- operators of the result
  have hops' : t'.ops = (canonicalizeSqops (t.ops.map (SQOp.reindex st.map)) false).1 := by rw [h6]
  have hpo : t'.ops.Perm (t.ops.map (SQOp.reindex st.map)) := by
    rw [hops']
    obtain ⟨L, hL, e⟩ := canonicalizeSqops_eq (t.ops.map (SQOp.reindex st.map)) false
    have := hL.map Prod.fst
    rw [enumFrom_map_fst] at this
    rw [e]; exact this
  have hso : t'.ops.Pairwise (fun a b => CppLt.lt b a = false) := by
    rw [hops']
    exact sorted_fst (stdSort_sorted _)
  have hopF : ∀ a ∈ t.ops, a.index ∈ t.tensors.flatMap (fun x => x.lower ++ x.upper) := by
    intro a ha
    obtain ⟨x, hx, hi⟩ := hc a ha
    exact memF x hx _ hi
  have hspaces : Multiset.map (fun a : SQOp => a.index.space) (t'.ops : Multiset SQOp) = Multiset.map (fun a : SQOp => a.index.space) (t.ops : Multiset SQOp) := by
    rw [Multiset.coe_eq_coe.2 hpo, ← Multiset.map_coe, Multiset.map_map]
    exact Multiset.map_congr rfl (fun a ha => hρsp _ (hopF a ha))
  obtain ⟨tc', h2'⟩ := foldIncr_ok (fun a : SQOp => a.index.space) t'.ops (List.replicate o.spaces.length 0) (by
    intro a ha
    have h := (foldIncr_list (g := fun a : SQOp => a.index.space) h2).2
    rw [← hspaces] at h
    rw [List.length_replicate]
    exact h _ (Multiset.mem_map_of_mem _ ha))
  have htc' : tc' = tc := by
    rw [(foldIncr_list (g := fun a : SQOp => a.index.space) h2).1, (foldIncr_list (g := fun a : SQOp => a.index.space) h2').1, hspaces]
  subst htc'
  have hkind : ∀ i ∈ t.tensors.flatMap (fun x => x.lower ++ x.upper), (applyMap st.map i ∈ t'.ops.map SQOp.index ↔ i ∈ t.ops.map SQOp.index) := by
    intro i hi
    rw [(hpo.map SQOp.index).mem_iff]
    simp only [List.map_map, List.mem_map, Function.comp, SQOp.reindex]
    constructor
    · rintro ⟨a, ha, e⟩
      exact ⟨a, ha, hρinj _ (hopF a ha) _ hi e⟩
    · rintro ⟨a, ha, rfl⟩
      exact ⟨a, ha, rfl⟩
  -- the relabelling is the identity
  have hcons := relabel_consec (κ := fun i => decide (i ∈ t'.ops.map SQOp.index)) (T.flatMap (fun x => x.lower ++ x.upper)) _ st rinit h3 (by
    intro i hi
    rw [decide_eq_decide]
    exact hkind i ((hperm.flatMap_right _).subset hi))
  have hmapT : (T.map (Tensor.reindex st.map)).flatMap (fun x => x.lower ++ x.upper) = (T.flatMap (fun x => x.lower ++ x.upper)).map (applyMap st.map) := by
    rw [List.flatMap_map, List.map_flatMap]
    simp only [Tensor.reindex, List.map_append]
  rw [← hmapT] at hcons
  have hblk := consec_blocks (L := T.map (Tensor.reindex st.map)) (L' := ts.map Prod.fst) (by
    rw [List.forall₂_map_left_iff]
    exact hcan.imp (fun _ _ h => h.2.2)) (by
    rw [hmapT]
    intro j hj
    obtain ⟨i, hi, rfl⟩ := List.mem_map.1 hj
    have hi' := (hperm.flatMap_right _).subset hi
    rw [hρsp i hi']
    exact (hregF i hi').1) hcons
  obtain ⟨st', h3', hid⟩ := relabel_ident (opIdx := t'.ops.map SQOp.index) (n := o.spaces.length) (D := (ts.map Prod.fst).flatMap (fun x => x.lower ++ x.upper)) (by
      intro j hj
      obtain ⟨y, hy, hj⟩ := List.mem_flatMap.1 hj
      exact hreg' y hy j hj) _ (fun _ hi => hi) ⟨List.replicate o.spaces.length 0, tc', []⟩ rfl hblk
    ⟨List.Pairwise.nil, by simp, c1, by simp, by
      intro j hj
      obtain ⟨y, hy, hj⟩ := List.mem_flatMap.1 hj
      obtain ⟨i, hi, rfl⟩ := memR y hy j hj
      obtain ⟨v, hv⟩ := hkey i hi
      have hsp := r1.space _ hv
      rw [if_neg]
      · rfl
      · rw [show decide (applyMap st.map i ∈ t'.ops.map SQOp.index) = decide (i ∈ t.ops.map SQOp.index) from decide_eq_decide.2 (hkind i hi), hρsp i hi, applyMap_mem r1.srt hv]
        by_cases ho : i ∈ t.ops.map SQOp.index
        · have := (r1.op _ hv ho).1
          have e : (List.replicate o.spaces.length (0 : Int)).getD i.space.toNat 0 = 0 := cnt_zero _ _
          simp only [Relabel.ctr, ho, decide_true, if_true]
          rw [e]
          dsimp only at this
          omega
        · have := (r1.nop _ hv ho).1
          simp only [Relabel.ctr, ho, decide_false]
          unfold cnt at this
          dsimp only at this
          simp only [Bool.false_eq_true, if_false]
          omega⟩
  have hfix : ∀ y ∈ ts.map Prod.fst, y.canonicalize = .ok (y, Rational.ofInt 1) := by
    intro y hy
    obtain ⟨x, _, hR⟩ := Wick.forall₂_right hcan y hy
    exact hR.2.1
  have hre : (ts.map Prod.fst).map (Tensor.reindex st'.map) = ts.map Prod.fst := by
    apply List.map_id''
    intro y
    unfold Tensor.reindex
    rw [List.map_id'' (applyMap_ident hid), List.map_id'' (applyMap_ident hid)]
  have hro : t'.ops.map (SQOp.reindex st'.map) = t'.ops := by
    apply List.map_id''
    intro a
    unfold SQOp.reindex
    rw [applyMap_ident hid]
  rw [← ht'] at h1' h3' hT' hre h5
  have hnew := canonicalize_of (ts := (ts.map Prod.fst).map (fun x => (x, Rational.ofInt 1))) h1' h2' (by rw [hT']; exact h3') (by
    rw [hT', hre, ht']
    exact mapM_fixed _ hfix) (by
    rw [List.map_map]
    simpa [Function.comp_def, ht'] using h5)
  rw [hnew, hro]
  obtain ⟨q1, q2⟩ := canon_of_sorted t'.ops hso
  have hq : canonicalizeSqops t'.ops false = (t'.ops, 1) := by
    have e : canonicalizeSqops t'.ops false = ((stdSort (enumFrom 0 t'.ops)).map Prod.fst, permutationSign ((stdSort (enumFrom 0 t'.ops)).map Prod.snd)) := rfl
    rw [e, q1, q2]
  have hone : ∀ l : List Tensor, (l.map (fun x => (x, Rational.ofInt 1))).foldl (fun f p => Rational.mul f p.2) (Rational.ofInt 1) = Rational.ofInt 1 := by
    intro l
    induction l with
    | nil => rfl
    | cons x l ih =>
      rw [List.map_cons, List.foldl_cons]
      dsimp only
      rw [show Rational.mul (Rational.ofInt 1) (Rational.ofInt 1) = Rational.ofInt 1 by decide, ih]
  rw [hq, hone]
  have : (List.map Prod.fst (List.map (fun x => (x, Rational.ofInt 1)) (List.map Prod.fst ts))) = t'.tensors := by
    rw [List.map_map, ht']
    simp [Function.comp_def]
  rw [this, show Rational.mul (Rational.ofInt 1) (Rational.ofInt 1) = Rational.ofInt 1 by decide]

/-! ## terms with tensors that cannot be told apart -/

/-- an occupied space 0 and an unoccupied space 1 -/
def occVirt : OSI := (((OSI.empty.addSpace 'o' .fermion .occupied [['i']] []).1).addSpace 'v' .fermion .unoccupied [['a']] []).1

/-- `t_{v0 o0}^{v0} t_{v1 o1}^{v1} t^{o0 o1}` -/
def tiedTerm : STerm := ⟨false, [],
  [⟨['t'], [⟨1, 0⟩, ⟨0, 0⟩], [⟨1, 0⟩], .antisymmetric, false⟩, ⟨['t'], [⟨1, 1⟩, ⟨0, 1⟩], [⟨1, 1⟩], .antisymmetric, false⟩,
    ⟨['t'], [], [⟨0, 0⟩, ⟨0, 1⟩], .antisymmetric, false⟩]⟩

/-- exchange of the names `v0` and `v1` -/
def swapV (i : Index) : Index := if i.space = 1 then ⟨1, 1 - i.pos⟩ else i

/-- `tiedTerm` with the names `v0` and `v1` exchanged -/
def tiedTerm' : STerm := ⟨false, [], tiedTerm.tensors.map (Tensor.rename swapV)⟩

/-- **C64 is false in general**: two terms that differ only by the names of two summation indices are given different canonical terms, so
like terms are not collected. -/
theorem C64_not_canonical : tiedTerm.Covered ∧ tiedTerm.SameUpToNames swapV tiedTerm' ∧
    (∀ i ∈ tiedTerm.allIdx, (swapV i).space = i.space) ∧ (∀ i ∈ tiedTerm.allIdx, ∀ j ∈ tiedTerm.allIdx, swapV i = swapV j → i = j) ∧
    ∃ r f r' f', tiedTerm.canonicalize occVirt = .ok (r, f) ∧ tiedTerm'.canonicalize occVirt = .ok (r', f') ∧ r ≠ r' := by
  refine ⟨fun a ha => absurd ha (by simp [tiedTerm]), ⟨rfl, List.Perm.refl _, List.Perm.refl _⟩, by decide, by decide, ?_⟩
  refine ⟨⟨false, [], [⟨['t'], [], [⟨0, 0⟩, ⟨0, 1⟩], .antisymmetric, false⟩, ⟨['t'], [⟨0, 0⟩, ⟨1, 0⟩], [⟨1, 0⟩], .antisymmetric, false⟩,
      ⟨['t'], [⟨0, 1⟩, ⟨1, 1⟩], [⟨1, 1⟩], .antisymmetric, false⟩]⟩, Rational.ofInt 1,
    ⟨false, [], [⟨['t'], [], [⟨0, 0⟩, ⟨0, 1⟩], .antisymmetric, false⟩, ⟨['t'], [⟨0, 1⟩, ⟨1, 0⟩], [⟨1, 0⟩], .antisymmetric, false⟩,
      ⟨['t'], [⟨0, 0⟩, ⟨1, 1⟩], [⟨1, 1⟩], .antisymmetric, false⟩]⟩, Rational.ofInt 1, ?_, ?_, ?_⟩ <;> decide +kernel

/-- **C64 is false in general**: canonicalizing the canonical term again changes it. -/
theorem C64_not_idempotent : ∃ r f r' f', tiedTerm'.canonicalize occVirt = .ok (r, f) ∧ r.canonicalize occVirt = .ok (r', f') ∧ r' ≠ r := by
  refine ⟨⟨false, [], [⟨['t'], [], [⟨0, 0⟩, ⟨0, 1⟩], .antisymmetric, false⟩, ⟨['t'], [⟨0, 1⟩, ⟨1, 0⟩], [⟨1, 0⟩], .antisymmetric, false⟩,
      ⟨['t'], [⟨0, 0⟩, ⟨1, 1⟩], [⟨1, 1⟩], .antisymmetric, false⟩]⟩, Rational.ofInt 1,
    ⟨false, [], [⟨['t'], [], [⟨0, 0⟩, ⟨0, 1⟩], .antisymmetric, false⟩, ⟨['t'], [⟨0, 0⟩, ⟨1, 0⟩], [⟨1, 0⟩], .antisymmetric, false⟩,
      ⟨['t'], [⟨0, 1⟩, ⟨1, 1⟩], [⟨1, 1⟩], .antisymmetric, false⟩]⟩, Rational.ofInt 1, ?_, ?_, ?_⟩ <;> decide +kernel

/-- `f_{v0}^{o0} t_{o0}^{v5} t_{o3}^{v0} a†(o3) a(v5)`: the two tensors `t` are told apart by their connections to `f` -/
def c64Example : STerm := ⟨false, [⟨.creation, ⟨0, 3⟩⟩, ⟨.annihilation, ⟨1, 5⟩⟩],
  [⟨['f'], [⟨1, 0⟩], [⟨0, 0⟩], .antisymmetric, false⟩, ⟨['t'], [⟨0, 0⟩], [⟨1, 5⟩], .antisymmetric, false⟩, ⟨['t'], [⟨0, 3⟩], [⟨1, 0⟩], .antisymmetric, false⟩]⟩

/-- the hypotheses of C64 are met by a term with two tensors of the same label and the same spaces -/
example : c64Example.Covered ∧ c64Example.Distinguishable ∧ (∃ r, c64Example.canonicalize occVirt = .ok r) ∧
    c64Example.SameUpToNames (fun i => ⟨i.space, 7 - i.pos⟩)
      ⟨false, [⟨.annihilation, ⟨1, 2⟩⟩, ⟨.creation, ⟨0, 4⟩⟩],
        [⟨['t'], [⟨0, 4⟩], [⟨1, 7⟩], .antisymmetric, false⟩, ⟨['f'], [⟨1, 7⟩], [⟨0, 7⟩], .antisymmetric, false⟩, ⟨['t'], [⟨0, 7⟩], [⟨1, 2⟩], .antisymmetric, false⟩]⟩ := by
  refine ⟨?_, ?_, ?_, rfl, by decide, by decide⟩
  · unfold STerm.Covered; decide
  · unfold STerm.Distinguishable; decide +kernel
  · generalize h : c64Example.canonicalize occVirt = x
    cases x with
    | ok r => exact ⟨r, rfl⟩
    | error e =>
      exfalso
      revert h
      cases e <;> decide +kernel

end Wicked
