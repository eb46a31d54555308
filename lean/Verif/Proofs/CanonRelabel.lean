import Verif.Proofs.CanonForm
/-! # Lemmas for C64: the relabelling loop -/
namespace Wicked
open CppLt CppEq STerm

/-! ## relabelling commutes with renaming -/

theorem index_eqv {i j : Index} : eqv i j = true ↔ i = j := by
  rw [eqv_iff]
  constructor
  · rintro ⟨h1, h2⟩
    exact StrictTotal.conn i j h1 h2
  · rintro rfl
    exact ⟨StrictWeak.irrefl _, StrictWeak.irrefl _⟩

theorem imap_find_insert {m : IndexMap} (hm : SMap.Srt m) (k v i : Index) :
    SMap.find i (SMap.insert k v m) = if k = i then some v else SMap.find i m := by
  rw [SMap.find_insert hm]
  by_cases h : k = i
  · rw [if_pos h, if_pos (index_eqv.2 h)]
  · rw [if_neg h, if_neg (fun h' => h (index_eqv.1 h'))]

/-- two states of the loop that differ by names -/
structure RelMatch (ρ : Index → Index) (D : List Index) (st st' : Relabel) : Prop where
  srt : SMap.Srt st.map
  srt' : SMap.Srt st'.map
  sq : st'.sqopCount = st.sqopCount
  tc : st'.tensCount = st.tensCount
  find : ∀ i ∈ D, SMap.find (ρ i) st'.map = SMap.find i st.map

theorem relabel_rename {ρ : Index → Index} {opIdx opIdx' D : List Index} (hinj : ∀ i ∈ D, ∀ j ∈ D, ρ i = ρ j → i = j)
    (hsp : ∀ i ∈ D, (ρ i).space = i.space) (hop : ∀ i ∈ D, (ρ i ∈ opIdx' ↔ i ∈ opIdx)) (l : List Index) :
    (∀ i ∈ l, i ∈ D) → ∀ (st st' r : Relabel), RelMatch ρ D st st' → l.foldlM (relabelStep opIdx) st = .ok r →
      ∃ r', (l.map ρ).foldlM (relabelStep opIdx') st' = .ok r' ∧ RelMatch ρ D r r' := by
  induction l with
  | nil =>
    intro _ st st' r hm h
    rw [List.foldlM_nil] at h; cases h
    exact ⟨st', rfl, hm⟩
  | cons i l ih =>
    intro hl st st' r hm h
    have hi := hl i (by simp)
    rw [List.foldlM_cons] at h
    cases h1 : relabelStep opIdx st i with
    | error e => rw [h1] at h; cases h
    | ok st1 =>
      rw [h1] at h
      have key : ∃ st1', relabelStep opIdx' st' (ρ i) = .ok st1' ∧ RelMatch ρ D st1 st1' := by
        unfold relabelStep at h1 ⊢
        rw [hm.find i hi, hsp i hi, hm.sq, hm.tc]
        cases hf : SMap.find i st.map with
        | some v =>
          rw [hf] at h1; cases h1
          exact ⟨st', rfl, hm⟩
        | none =>
          rw [hf] at h1
          have hc : opIdx'.contains (ρ i) = opIdx.contains i := by
            rw [Bool.eq_iff_iff, List.contains_iff_mem, List.contains_iff_mem]
            exact hop i hi
          have hfind : ∀ v, ∀ j ∈ D, SMap.find (ρ j) (SMap.insert (ρ i) v st'.map) = SMap.find j (SMap.insert i v st.map) := by
            intro v j hj
            rw [imap_find_insert hm.srt', imap_find_insert hm.srt, hm.find j hj]
            by_cases hij : i = j
            · rw [if_pos hij, if_pos (by rw [hij])]
            · rw [if_neg hij, if_neg (fun h => hij (hinj i hi j hj h))]
          dsimp only at h1 ⊢
          rw [hc]
          split at h1
          · rename_i hx
            rw [if_pos hx]
            cases hinc : incr st.sqopCount i.space with
            | error e => rw [hinc] at h1; cases h1
            | ok c =>
              rw [hinc] at h1; cases h1
              exact ⟨_, rfl, SMap.srt_insert hm.srt, SMap.srt_insert hm.srt', rfl, rfl, hfind _⟩
          · rename_i hx
            rw [if_neg hx]
            cases hinc : incr st.tensCount i.space with
            | error e => rw [hinc] at h1; cases h1
            | ok c =>
              rw [hinc] at h1; cases h1
              exact ⟨_, rfl, SMap.srt_insert hm.srt, SMap.srt_insert hm.srt', rfl, rfl, hfind _⟩
      obtain ⟨st1', e1, m1⟩ := key
      obtain ⟨r', e2, m2⟩ := ih (fun j hj => hl j (by simp [hj])) st1 st1' r m1 h
      refine ⟨r', ?_, m2⟩
      rw [List.map_cons, List.foldlM_cons, e1]
      exact e2

/-- the converse of `canonicalize_inv` -/
theorem canonicalize_of {o : OSI} {t : STerm} {scores tc st ts}
    (h1 : t.tensors.mapM (m := Except Fault) (STerm.score o t.tensors) = .ok scores)
    (h2 : t.ops.foldlM (fun c (a : SQOp) => incr c a.index.space) (List.replicate o.spaces.length 0) = (.ok tc : Res _))
    (h3 : (((stdSort scores).map (fun s => s.2.2.2.2.2.2)).flatMap (fun x => x.lower ++ x.upper)).foldlM
        (STerm.relabelStep (t.ops.map SQOp.index)) ⟨List.replicate o.spaces.length 0, tc, []⟩ = .ok st)
    (h4 : (((stdSort scores).map (fun s => s.2.2.2.2.2.2)).map (Tensor.reindex st.map)).mapM (m := Except Fault) Tensor.canonicalize = .ok ts)
    (h5 : STerm.simplifyGuard o (ts.map Prod.fst) = .ok ()) :
    t.canonicalize o = .ok (⟨t.normalOrdered, (canonicalizeSqops (t.ops.map (SQOp.reindex st.map)) false).1, ts.map Prod.fst⟩,
      Rational.mul (ts.foldl (fun f p => Rational.mul f p.2) (Rational.ofInt 1))
        (Rational.ofInt (canonicalizeSqops (t.ops.map (SQOp.reindex st.map)) false).2)) := by
  unfold STerm.canonicalize
  simp only [h1, h2, h3, bind, Except.bind, STerm.reindex, h4, h5]
  rfl

theorem canonicalizeSqops_perm {l l' : List SQOp} (h : l'.Perm l) : (canonicalizeSqops l' false).1 = (canonicalizeSqops l false).1 := by
  have key : ∀ l : List SQOp, (canonicalizeSqops l false).1 = stdSort l := by
    intro l
    have e : canonicalizeSqops l false = ((stdSort (enumFrom 0 l)).map Prod.fst, permutationSign ((stdSort (enumFrom 0 l)).map Prod.snd)) := rfl
    rw [e]
    apply stdSortBy_unique
    · have := (stdSort_perm (enumFrom 0 l)).map Prod.fst
      rwa [enumFrom_map_fst] at this
    · exact sorted_fst (stdSort_sorted _)
  rw [key, key]
  exact stdSort_perm_eq h

theorem tensorSig_perm {ts ts' : List Tensor} (h : ts.Perm ts') (x : Tensor) : tensorSig ts x = tensorSig ts' x := by
  unfold tensorSig
  rw [Multiset.coe_eq_coe.2 h]

/-! ## signs -/

theorem foldSign {l : List Tensor} {ts : List (Tensor × Rational)} (h : List.Forall₂ (fun x y => Tensor.canonicalize x = .ok y) l ts) :
    ∀ f0 : ℤ, f0 = 1 ∨ f0 = -1 → ∃ s : ℤ, (s = 1 ∨ s = -1) ∧ ts.foldl (fun f p => Rational.mul f p.2) (Rational.ofInt f0) = Rational.ofInt s := by
  induction h with
  | nil => intro f0 h; exact ⟨f0, h, rfl⟩
  | @cons x y l ts h1 _ ih =>
    intro f0 hf
    by_cases hn : x.symm = .nonsymmetric
    · rw [(C17_tensor_canonicalize x).1 hn] at h1; cases h1
    obtain ⟨t', s, e, hs, _⟩ := (C17_tensor_canonicalize x).2 hn
    rw [e] at h1; cases h1
    rw [List.foldl_cons]
    dsimp only
    rw [ofInt_mul_signs hf hs]
    apply ih
    rcases hf with rfl | rfl <;> rcases hs with rfl | rfl <;> simp

theorem sqopsSign (l : List SQOp) : (canonicalizeSqops l false).2 = 1 ∨ (canonicalizeSqops l false).2 = -1 := by
  obtain ⟨L, _, e⟩ := canonicalizeSqops_eq l false
  rw [e]
  exact permutationSign_cases _

end Wicked
