import Verif.Proofs.Extend
import Verif.Props.CanonTerm
/-! # Registering more spaces keeps results (C71): counters, canonicalization, many-body equations, operators -/
namespace Wicked
open CppLt CppEq OSI

/-! ## counters -/

/-- a counter with `k` more entries, all zero -/
def pad (k : Nat) (c : List Int) : List Int := c ++ List.replicate k 0

theorem pad_zero (n k : Nat) : pad k (List.replicate n 0) = List.replicate (n + k) 0 := by
  rw [pad, List.replicate_append_replicate]

theorem modify_append {α : Type} (f : α → α) (l m : List α) (n : Nat) (h : n < l.length) : (l ++ m).modify n f = l.modify n f ++ m := by
  apply List.ext_getElem?
  intro i
  rw [List.getElem?_modify]
  by_cases hi : i < l.length
  · rw [List.getElem?_append_left hi, List.getElem?_append_left (by simpa using hi), List.getElem?_modify]
  · rw [List.getElem?_append_right (by omega), List.getElem?_append_right (by simp; omega)]
    have : n ≠ i := by omega
    simp [this]

theorem getD_append {α : Type} (l m : List α) (n : Nat) (d : α) (h : n < l.length) : (l ++ m).getD n d = l.getD n d := by
  rw [List.getD_eq_getElem?_getD, List.getD_eq_getElem?_getD, List.getElem?_append_left h]

/-- the relation between counters -/
def Padded (n k : Nat) (c c' : List Int) : Prop := c.length = n ∧ c' = pad k c

theorem sim_incr {n k : Nat} {c c' : List Int} (h : Padded n k c c') (s : Int) : Sim (Padded n k) (incr c s) (incr c' s) := by
  intro a ha
  obtain ⟨⟨h1, h2⟩, rfl⟩ := (incr_ok_iff _ _ _).1 ha
  refine ⟨_, (incr_ok_iff _ _ _).2 ⟨⟨h1, ?_⟩, rfl⟩, ?_, ?_⟩
  · rw [h.2, pad, List.length_append]; omega
  · simpa using h.1
  · rw [h.2, pad, modify_append _ _ _ _ h2, pad]

theorem padded_zero {n k m : Nat} (h : m = n + k) : Padded n k (List.replicate n 0) (List.replicate m 0) :=
  ⟨by simp, by rw [h, pad_zero]⟩

theorem sim_numIndices {o o' : OSI} {k : Nat} (hk : o'.spaces.length = o.spaces.length + k) (l : List Index) :
    Sim (Padded o.spaces.length k) (numIndicesPerSpace o l) (numIndicesPerSpace o' l) := by
  unfold numIndicesPerSpace
  exact Sim.foldlM (R := Padded o.spaces.length k) l (fun i _ b c h => sim_incr h i.space) _ _ (padded_zero hk)

/-! ## sorting -/

theorem insertBy_map {α β : Type} {f : α → β} {p : α → α → Bool} {q : β → β → Bool} (a : α) : ∀ (l : List α),
    (∀ b ∈ l, q (f b) (f a) = p b a) → insertBy q (f a) (l.map f) = (insertBy p a l).map f := by
  intro l
  induction l with
  | nil => intro _; rfl
  | cons b l ih =>
    intro h
    rw [List.map_cons, insertBy, insertBy, h b (by simp)]
    split
    · rw [ih (fun x hx => h x (by simp [hx])), List.map_cons]
    · rfl

theorem stdSortBy_map {α β : Type} {f : α → β} {p : α → α → Bool} {q : β → β → Bool} : ∀ (l : List α),
    (∀ a ∈ l, ∀ b ∈ l, q (f a) (f b) = p a b) → stdSortBy q (l.map f) = (stdSortBy p l).map f := by
  intro l
  induction l with
  | nil => intro _; rfl
  | cons a l ih =>
    intro h
    show insertBy q (f a) (stdSortBy q (l.map f)) = (insertBy p a (stdSortBy p l)).map f
    rw [ih (fun x hx y hy => h x (by simp [hx]) y (by simp [hy]))]
    apply insertBy_map
    intro b hb
    exact h b (by simp [(stdSortBy_perm p l).mem_iff.1 hb]) a (by simp)

theorem stdSort_map {α β : Type} [CppLt α] [CppLt β] {f : α → β} (l : List α) (h : ∀ a ∈ l, ∀ b ∈ l, lt (f a) (f b) = lt a b) :
    stdSort (l.map f) = (stdSort l).map f := stdSortBy_map l h

theorem lexLt_append_same {α : Type} [CppLt α] (hirr : ∀ a : α, lt a a = false) (z : List α) : ∀ (a b : List α), a.length = b.length →
    lexLt (a ++ z) (b ++ z) = lexLt a b := by
  have hz : lexLt z z = false := by
    induction z with
    | nil => rfl
    | cons x z ih => simp [lexLt, hirr, ih]
  intro a
  induction a with
  | nil => intro b h; obtain rfl : b = [] := List.length_eq_zero_iff.1 (by simpa using h.symm); simpa [lexLt] using hz
  | cons x a ih =>
    intro b h
    cases b with
    | nil => simp at h
    | cons y b =>
      rw [List.cons_append, List.cons_append, lexLt, lexLt, ih b (by simpa using h)]

theorem lt_pad {n k : Nat} {a b : List Int} (ha : a.length = n) (hb : b.length = n) : lt (pad k a) (pad k b) = lt a b :=
  lexLt_append_same (fun a => by show decide (a < a) = false; simp) _ a b (by rw [ha, hb])

theorem lexLt_map_on {α β : Type} [CppLt α] [CppLt β] {f : α → β} : ∀ (l m : List α), (∀ a ∈ l, ∀ b ∈ m, lt (f a) (f b) = lt a b ∧ lt (f b) (f a) = lt b a) →
    lexLt (l.map f) (m.map f) = lexLt l m := by
  intro l
  induction l with
  | nil => intro m _; cases m <;> rfl
  | cons a l ih =>
    intro m h
    cases m with
    | nil => rfl
    | cons b m =>
      rw [List.map_cons, List.map_cons, lexLt, lexLt, (h a (by simp) b (by simp)).1, (h a (by simp) b (by simp)).2,
        ih m (fun x hx y hy => h x (by simp [hx]) y (by simp [hy]))]

/-! ## the scores -/

/-- padding of one entry of a connectivity list -/
def padC (k : Nat) (p : Str × List Int) : Str × List Int := (p.1, pad k p.2)

/-- all counters of a connectivity list have length `n` -/
def CLen (n : Nat) (c : STerm.Conn) : Prop := ∀ p ∈ c, p.2.length = n

theorem lt_padC {n k : Nat} {p q : Str × List Int} (hp : p.2.length = n) (hq : q.2.length = n) : lt (padC k p) (padC k q) = lt p q := by
  show (lt p.1 q.1 || (!lt q.1 p.1 && lt (pad k p.2) (pad k q.2))) = _
  rw [lt_pad hp hq]; rfl

theorem lt_padConn {n k : Nat} {c d : STerm.Conn} (hc : CLen n c) (hd : CLen n d) : lt (c.map (padC k)) (d.map (padC k)) = lt c d :=
  lexLt_map_on c d (fun a ha b hb => ⟨lt_padC (hc a ha) (hd b hb), lt_padC (hd b hb) (hc a ha)⟩)

/-- relation between connectivity lists -/
def PadConn (n k : Nat) (c c' : STerm.Conn) : Prop := CLen n c ∧ c' = c.map (padC k)

theorem sim_connectivity {o o' : OSI} {k : Nat} (hk : o'.spaces.length = o.spaces.length + k) (ts : List Tensor) (t : Tensor) (u : Bool) :
    Sim (PadConn o.spaces.length k) (STerm.tensorConnectivity o ts t u) (STerm.tensorConnectivity o' ts t u) := by
  unfold STerm.tensorConnectivity
  dsimp only
  have h1 := Sim.mapM (R := fun (p q : Str × List Int) => p.2.length = o.spaces.length ∧ q = padC k p)
    (f := fun x : Tensor => do
      let c ← numIndicesPerSpace o (setIntersection (stdSort (if u = true then t.upper else t.lower)) (stdSort (if u = true then x.lower else x.upper)))
      return (x.label, c))
    (g := fun x : Tensor => do
      let c ← numIndicesPerSpace o' (setIntersection (stdSort (if u = true then t.upper else t.lower)) (stdSort (if u = true then x.lower else x.upper)))
      return (x.label, c)) (ts.filter (fun x => !eq t x))
    (fun x _ => (sim_numIndices hk _).bind (fun a b hab => Sim.pure ⟨hab.1, by rw [padC, hab.2]⟩))
  refine h1.bind (fun a b hab => Sim.pure ?_)
  have : CLen o.spaces.length a ∧ b = a.map (padC k) := by
    induction hab with
    | nil => exact ⟨by simp [CLen], rfl⟩
    | @cons p q l m hpq _ ih =>
      refine ⟨?_, by rw [hpq.2, ih.2, List.map_cons]⟩
      intro x hx
      rcases List.mem_cons.1 hx with rfl | hx
      · exact hpq.1
      · exact ih.1 x hx
  refine ⟨fun p hp => this.1 p ((stdSortBy_perm _ a).mem_iff.1 hp), ?_⟩
  rw [this.2]
  exact stdSort_map a (fun x hx y hy => lt_padC (this.1 x hx) (this.1 y hy))

/-- padding of a score -/
def padS (k : Nat) (s : STerm.Score) : STerm.Score :=
  (s.1, s.2.1, pad k s.2.2.1, pad k s.2.2.2.1, s.2.2.2.2.1.map (padC k), s.2.2.2.2.2.1.map (padC k), s.2.2.2.2.2.2)

/-- all counters of a score have length `n` -/
def SLen (n : Nat) (s : STerm.Score) : Prop :=
  s.2.2.1.length = n ∧ s.2.2.2.1.length = n ∧ CLen n s.2.2.2.2.1 ∧ CLen n s.2.2.2.2.2.1

theorem lt_padS {n k : Nat} {s t : STerm.Score} (hs : SLen n s) (ht : SLen n t) : lt (padS k s) (padS k t) = lt s t := by
  obtain ⟨s1, s2, s3, s4, s5, s6, s7⟩ := s
  obtain ⟨t1, t2, t3, t4, t5, t6, t7⟩ := t
  obtain ⟨a1, a2, a3, a4⟩ := hs
  obtain ⟨b1, b2, b3, b4⟩ := ht
  dsimp only at a1 a2 a3 a4 b1 b2 b3 b4
  simp only [padS]
  show (lt s1 t1 || (!lt t1 s1 && (lt s2 t2 || (!lt t2 s2 && (lt (pad k s3) (pad k t3) || (!lt (pad k t3) (pad k s3) &&
    (lt (pad k s4) (pad k t4) || (!lt (pad k t4) (pad k s4) && (lt (s5.map (padC k)) (t5.map (padC k)) || (!lt (t5.map (padC k)) (s5.map (padC k)) &&
    (lt (s6.map (padC k)) (t6.map (padC k)) || (!lt (t6.map (padC k)) (s6.map (padC k)) && lt s7 t7)))))))))))) = _
  rw [lt_pad a1 b1, lt_pad b1 a1, lt_pad a2 b2, lt_pad b2 a2, lt_padConn a3 b3, lt_padConn b3 a3, lt_padConn a4 b4, lt_padConn b4 a4]
  rfl

theorem sim_score {o o' : OSI} {k : Nat} (hk : o'.spaces.length = o.spaces.length + k) (ts : List Tensor) (t : Tensor) :
    Sim (fun s s' => SLen o.spaces.length s ∧ s' = padS k s) (STerm.score o ts t) (STerm.score o' ts t) := by
  unfold STerm.score
  refine (sim_numIndices hk _).bind (fun a a' ha => (sim_numIndices hk _).bind (fun b b' hb =>
    (sim_connectivity hk _ _ _).bind (fun c c' hc => (sim_connectivity hk _ _ _).bind (fun d d' hd => Sim.pure ?_))))
  exact ⟨⟨ha.1, hb.1, hc.1, hd.1⟩, by rw [ha.2, hb.2, hc.2, hd.2]; rfl⟩

theorem sim_sortedTensors {o o' : OSI} {k : Nat} (hk : o'.spaces.length = o.spaces.length + k) (ts : List Tensor) :
    Sim (fun s s' => (stdSort s').map (fun s : STerm.Score => s.2.2.2.2.2.2) = (stdSort s).map (fun s => s.2.2.2.2.2.2))
      (ts.mapM (m := Except Fault) (STerm.score o ts)) (ts.mapM (m := Except Fault) (STerm.score o' ts)) := by
  refine (Sim.mapM ts (fun t _ => sim_score hk ts t)).mono (fun a b hab => ?_)
  have : (∀ s ∈ a, SLen o.spaces.length s) ∧ b = a.map (padS k) := by
    induction hab with
    | nil => exact ⟨by simp, rfl⟩
    | @cons p q l m hpq _ ih =>
      refine ⟨?_, by rw [hpq.2, ih.2, List.map_cons]⟩
      intro x hx
      rcases List.mem_cons.1 hx with rfl | hx
      · exact hpq.1
      · exact ih.1 x hx
  rw [this.2, stdSort_map a (fun x hx y hy => lt_padS (this.1 x hx) (this.1 y hy)), List.map_map]
  rfl

/-! ## relabelling -/

/-- relation between the states of the relabelling loop -/
def PadR (n k : Nat) (s s' : STerm.Relabel) : Prop :=
  Padded n k s.sqopCount s'.sqopCount ∧ Padded n k s.tensCount s'.tensCount ∧ s'.map = s.map

theorem sim_incr_get {n k : Nat} {c c' : List Int} (h : Padded n k c c') (s : Int) :
    Sim (fun a b => Padded n k a b ∧ c'.getD s.toNat 0 = c.getD s.toNat 0) (incr c s) (incr c' s) := by
  intro a ha
  obtain ⟨b, hb, hab⟩ := sim_incr h s a ha
  refine ⟨b, hb, hab, ?_⟩
  rw [h.2, pad, getD_append _ _ _ _ ((incr_ok_iff _ _ _).1 ha).1.2]

theorem sim_relabelStep {n k : Nat} (opIdx : List Index) (l : Index) (s s' : STerm.Relabel) (h : PadR n k s s') :
    Sim (PadR n k) (STerm.relabelStep opIdx s l) (STerm.relabelStep opIdx s' l) := by
  obtain ⟨h1, h2, h3⟩ := h
  unfold STerm.relabelStep
  rw [h3]
  cases s.map.find l with
  | some _ => exact Sim.ok ⟨h1, h2, h3⟩
  | none =>
    dsimp only
    split
    · exact (sim_incr_get h1 l.space).bind (fun a b hab => Sim.pure ⟨hab.1, h2, by dsimp only; rw [hab.2]⟩)
    · exact (sim_incr_get h2 l.space).bind (fun a b hab => Sim.pure ⟨h1, hab.1, by dsimp only; rw [hab.2]⟩)

/-! ## canonicalization -/

theorem forall₂_fst {α β : Type _} {R : α → β → Prop} {l : List α} {l' : List β} (h : List.Forall₂ R l l') :
    ∀ a ∈ l, ∃ b ∈ l', R a b := by
  induction h with
  | nil => simp
  | @cons x y l m h1 _ ih =>
    intro a ha
    rcases List.mem_cons.1 ha with rfl | ha
    · exact ⟨y, by simp, h1⟩
    · obtain ⟨b, hb, hr⟩ := ih a ha
      exact ⟨b, by simp [hb], hr⟩

theorem numIndices_registered {o : OSI} {l : List Index} {c} (h : numIndicesPerSpace o l = .ok c) : ∀ i ∈ l, i.Registered o := by
  intro i hi
  have := (foldIncr_spec Index.space _ _ _ h).2.1 i hi
  rw [List.length_replicate] at this
  exact this

theorem score_registered {o : OSI} {ts : List Tensor} {x : Tensor} {s} (h : STerm.score o ts x = .ok s) :
    ∀ i ∈ x.lower ++ x.upper, i.Registered o := by
  unfold STerm.score at h
  simp only [bind, Except.bind] at h
  split at h
  · cases h
  rename_i h1
  split at h
  · cases h
  rename_i h2
  intro i hi
  rcases List.mem_append.1 hi with hi | hi
  · exact numIndices_registered h1 i hi
  · exact numIndices_registered h2 i hi

/-- a term that can be canonicalized has registered indices only -/
theorem canonicalize_registered_in {o : OSI} {t : STerm} {r} (h : t.canonicalize o = .ok r) : ∀ i ∈ t.allIdx, i.Registered o := by
  obtain ⟨scores, tc, st, ts, h1, h2, h3, h4, h5, h6, h7⟩ := canonicalize_inv (t' := r.1) (f := r.2) h
  intro i hi
  unfold STerm.allIdx at hi
  rcases List.mem_append.1 hi with hi | hi
  · obtain ⟨a, ha, rfl⟩ := List.mem_map.1 hi
    have := (foldIncr_spec (fun a : SQOp => a.index.space) _ _ _ h2).2.1 a ha
    rw [List.length_replicate] at this
    exact this
  · obtain ⟨x, hx, hi⟩ := List.mem_flatMap.1 hi
    obtain ⟨s, _, hs⟩ := forall₂_fst ((mapM_ok_iff _ _ _).1 h1) x hx
    exact score_registered hs i hi

/-- and so has the result -/
theorem canonicalize_registered_out {o : OSI} {t : STerm} {r} (h : t.canonicalize o = .ok r) : ∀ i ∈ r.1.allIdx, i.Registered o := by
  obtain ⟨ρ, tensors, ts, hsh⟩ := canonicalize_shape (t' := r.1) (f := r.2) h
  intro j hj
  obtain ⟨i, hi, rfl⟩ := (renamed_mem (canonicalize_renamed hsh) j).1 hj
  have hr := canonicalize_registered_in h i hi
  by_cases hx : ∃ x ∈ t.tensors, i ∈ x.lower ++ x.upper
  · obtain ⟨x, hx, hix⟩ := hx
    unfold Index.Registered at hr ⊢
    rw [hsh.spaceT x hx i hix]
    exact hr
  · rw [hsh.other i (fun x hx' hix => hx ⟨x, hx', hix⟩)]
    exact hr

theorem guard_grows {o o' : OSI} (hle : o.spaces.length ≤ o'.spaces.length) {ts : List Tensor} (h : STerm.simplifyGuard o ts = .ok ())
    (hr : ∀ x ∈ ts, ∀ i ∈ x.upper ++ x.lower, i.Registered o) : STerm.simplifyGuard o' ts = .ok () := by
  unfold STerm.simplifyGuard at h ⊢
  split at h
  · rename_i ha
    rw [if_pos]
    rw [List.all_eq_true] at ha ⊢
    intro x hx
    have := ha x hx
    rw [List.all_eq_true] at this ⊢
    intro i hi
    have h1 := this i hi
    have h2 : 0 ≤ i.space ∧ i.space.toNat < o.spaces.length := hr x hx i hi
    rw [if_pos h2] at h1
    rw [if_pos ⟨h2.1, lt_of_lt_of_le h2.2 hle⟩]
    exact h1
  · cases h

theorem sim_canonicalize {o o' : OSI} (g : Grows o o') (t : STerm) : Sim (· = ·) (t.canonicalize o) (t.canonicalize o') := by
  obtain ⟨k, hk⟩ := g.exists_k
  intro r hr
  refine ⟨r, ?_, rfl⟩
  have hreg := canonicalize_registered_out hr
  obtain ⟨t', f⟩ := r
  obtain ⟨scores, tc, st, ts, h1, h2, h3, h4, h5, h6, h7⟩ := canonicalize_inv hr
  obtain ⟨scores', a1, a2⟩ := sim_sortedTensors hk t.tensors scores h1
  obtain ⟨tc', b1, b2⟩ := Sim.foldlM (R := Padded o.spaces.length k) t.ops (fun a _ b c h => sim_incr h a.index.space) _ _ (padded_zero hk) tc h2
  obtain ⟨st', c1, c2⟩ := Sim.foldlM (R := PadR o.spaces.length k) _
    (fun a _ b c h => sim_relabelStep (t.ops.map SQOp.index) a b c h) ⟨List.replicate o.spaces.length 0, tc, []⟩ ⟨List.replicate o'.spaces.length 0, tc', []⟩ ⟨padded_zero hk, b2, rfl⟩ st h3
  have hg : STerm.simplifyGuard o' (ts.map Prod.fst) = .ok () := by
    refine guard_grows g.length_le h5 (fun x hx i hi => hreg i ?_)
    rw [h6]
    unfold STerm.allIdx
    refine List.mem_append_right _ (List.mem_flatMap.2 ⟨x, hx, ?_⟩)
    simp only [List.mem_append] at hi ⊢
    exact hi.symm
  unfold STerm.canonicalize
  rw [← a2] at c1 h4
  simp only [a1, b1, c1, bind, Except.bind, STerm.reindex, c2.2.2, h4, hg]
  rw [h6, h7]
  rfl

theorem sim_expr_canonicalize {o o' : OSI} (g : Grows o o') (e : Expr) : Sim (· = ·) (e.canonicalize o) (e.canonicalize o') := by
  unfold Expr.canonicalize
  refine Sim.foldlM _ ?_ _ _ rfl
  rintro p _ b _ rfl
  exact (sim_canonicalize g p.1).bindEq (fun _ => Sim.refl _)

/-! ## many-body equations -/

/-- a signature with `k` more entries -/
def PadSig (n k : Nat) (c c' : List (Int × Int)) : Prop := c.length = n ∧ c' = c ++ List.replicate k (0, 0)

theorem sim_sigBump {n k : Nat} {c c' : List (Int × Int)} (h : PadSig n k c c') (u : Bool) (s : Int) :
    Sim (PadSig n k) (sigBump u c s) (sigBump u c' s) := by
  intro a ha
  unfold sigBump at ha ⊢
  split at ha
  · rename_i hb
    cases ha
    rw [if_pos ⟨hb.1, by rw [h.2, List.length_append]; omega⟩]
    refine ⟨_, rfl, by simpa using h.1, ?_⟩
    rw [h.2, modify_append _ _ _ _ hb.2]
  · cases ha

theorem sim_signature {o o' : OSI} {k : Nat} (hk : o'.spaces.length = o.spaces.length + k) (t : Tensor) :
    Sim (PadSig o.spaces.length k) (t.signature o) (t.signature o') := by
  unfold Tensor.signature
  refine Sim.bind (R := PadSig o.spaces.length k) (Sim.foldlM (R := PadSig o.spaces.length k) _ (fun i _ b c h => sim_sigBump h true i.space) _ _ ?_)
    (fun c c' hc => Sim.foldlM (R := PadSig o.spaces.length k) _ (fun i _ b c h => sim_sigBump h false i.space) _ _ hc)
  exact ⟨by simp, by rw [hk, List.replicate_append_replicate]⟩

theorem ext_label_ok {o : OSI} {n : Nat} (h : n < o.spaces.length) : ∃ c, o.label n = .ok c := by
  unfold OSI.label OSI.space
  rw [if_pos (by omega)]
  simp [h, bind, Except.bind, pure, Except.pure]

theorem sigStrings_zeros {o : OSI} : ∀ (k : Nat) (a b : Str) (n : Nat), n + k ≤ o.spaces.length →
    (List.replicate k ((0 : Int), (0 : Int))).foldlM (fun (st : Str × Str × Int) ul => do
      let c ← o.label st.2.2
      return (st.1 ++ List.replicate ul.1.toNat c, st.2.1 ++ List.replicate ul.2.toNat c, st.2.2 + 1)) (a, b, (n : Int)) =
        (.ok (a, b, ((n + k : Nat) : Int)) : Res _) := by
  intro k
  induction k with
  | zero => intro a b n _; rfl
  | succ k ih =>
    intro a b n h
    obtain ⟨c, hc⟩ := ext_label_ok (o := o) (n := n) (by omega)
    rw [List.replicate_succ, List.foldlM_cons]
    simp only [hc, bind, Except.bind, pure, Except.pure]
    have := ih a b (n + 1) (by omega)
    simp only [bind, Except.bind, pure, Except.pure] at this
    rw [show n + (k + 1) = n + 1 + k by omega, ← this]
    simp

theorem sigStrings_count {o : OSI} : ∀ (sig : List (Int × Int)) (st st' : Str × Str × Int),
    sig.foldlM (fun (st : Str × Str × Int) ul => do
      let c ← o.label st.2.2
      return (st.1 ++ List.replicate ul.1.toNat c, st.2.1 ++ List.replicate ul.2.toNat c, st.2.2 + 1)) st = (.ok st' : Res _) →
    st'.2.2 = st.2.2 + sig.length := by
  intro sig
  induction sig with
  | nil => intro st st' h; cases h; simp
  | cons a l ih =>
    intro st st' h
    rw [List.foldlM_cons] at h
    cases hc : o.label st.2.2 with
    | error e => simp only [hc, bind, Except.bind] at h; cases h
    | ok c =>
      simp only [hc, bind, Except.bind, pure, Except.pure] at h
      have := ih _ _ h
      simp only [List.length_cons] at this ⊢
      rw [this]; push_cast; ring

theorem sim_sigKey {o o' : OSI} (g : Grows o o') {k : Nat} (hk : o'.spaces.length = o.spaces.length + k) {sig sig'}
    (h : PadSig o.spaces.length k sig sig') : Sim (· = ·) (sigKey o sig) (sigKey o' sig') := by
  unfold sigKey
  refine Sim.bind (R := fun a b => a.1 = b.1 ∧ a.2.1 = b.2.1) ?_ (fun a b hab => Sim.pure (by rw [hab.1, hab.2]))
  intro r hr
  unfold sigStrings at hr ⊢
  rw [h.2, List.foldlM_append]
  obtain ⟨r', hr', rfl⟩ := Sim.foldlM (R := (· = ·)) (f := fun (st : Str × Str × Int) ul => do
      let c ← o.label st.2.2
      return (st.1 ++ List.replicate ul.1.toNat c, st.2.1 ++ List.replicate ul.2.toNat c, st.2.2 + 1))
    (g := fun (st : Str × Str × Int) ul => do
      let c ← o'.label st.2.2
      return (st.1 ++ List.replicate ul.1.toNat c, st.2.1 ++ List.replicate ul.2.toNat c, st.2.2 + 1)) sig
    (by rintro a _ b _ rfl; exact (sim_label g _).bindEq (fun _ => Sim.refl _)) ([], [], 0) ([], [], 0) rfl r hr
  rw [hr']
  have hcount := sigStrings_count _ _ _ hr
  obtain ⟨a, b, n⟩ := r
  rw [h.1] at hcount
  simp only [zero_add] at hcount
  subst hcount
  exact ⟨_, sigStrings_zeros k a b o.spaces.length (by omega), rfl, rfl⟩

theorem sim_toManybody {o o' : OSI} (g : Grows o o') (label : Str) (e : Expr) : Sim (· = ·) (e.toManybody o label) (e.toManybody o' label) := by
  obtain ⟨k, hk⟩ := g.exists_k
  unfold Expr.toManybody
  refine Sim.foldlM _ ?_ _ _ rfl
  rintro p _ b _ rfl
  exact (sim_signature hk _).bind (fun s s' hs => (sim_sigKey g hk hs).bindEq (fun _ => Sim.refl _))

/-! ## operators -/

theorem sim_bump {n k : Nat} {c c' : List Int} (h : Padded n k c c') (s : Int) : Sim (Padded n k) (OpExpr.bump c s) (OpExpr.bump c' s) :=
  sim_incr h s

theorem sim_countOps {o o' : OSI} (g : Grows o o') {k : Nat} (hk : o'.spaces.length = o.spaces.length + k) (l : List (Char × Bool)) :
    Sim (fun a b => Padded o.spaces.length k a.1 b.1 ∧ Padded o.spaces.length k a.2 b.2) (OpExpr.countOps o l) (OpExpr.countOps o' l) := by
  unfold OpExpr.countOps
  refine Sim.foldlM (R := fun (a b : List Int × List Int) => Padded o.spaces.length k a.1 b.1 ∧ Padded o.spaces.length k a.2 b.2) _ ?_ _ _ ⟨padded_zero hk, padded_zero hk⟩
  intro e _ a b hab
  refine (sim_labelToSpace g _).bindEq (fun s => ?_)
  split
  · exact (sim_bump hab.1 s).bind (fun _ _ h => Sim.pure ⟨h, hab.2⟩)
  · exact (sim_bump hab.2 s).bind (fun _ _ h => Sim.pure ⟨hab.1, h⟩)

theorem getD_pad (k : Nat) (c : List Int) (i : Nat) : (pad k c).getD i 0 = c.getD i 0 := by
  rw [pad, List.getD_eq_getElem?_getD, List.getD_eq_getElem?_getD]
  by_cases h : i < c.length
  · rw [List.getElem?_append_left h]
  · rw [List.getElem?_append_right (by omega), List.getElem?_eq_none (by omega : c.length ≤ i), List.getElem?_replicate]
    split <;> rfl

theorem mk2_grows {n k : Nat} (h8 : n + k ≤ 8) {c c' a a' : List Int} (hc : Padded n k c c') (ha : Padded n k a a') :
    Sim (· = ·) (GraphMatrix.mk2 n c a) (GraphMatrix.mk2 (n + k) c' a') := by
  intro r hr
  refine ⟨r, ?_, rfl⟩
  unfold GraphMatrix.mk2 at hr ⊢
  split at hr
  · cases hr
    rw [if_pos ⟨h8, by rw [hc.2, pad, List.length_append, hc.1]; simp, by rw [ha.2, pad, List.length_append, ha.1]; simp⟩]
    congr 2
    funext i
    rw [hc.2, ha.2, getD_pad, getD_pad]
    by_cases h1 : i < n
    · rw [if_pos h1, if_pos (by omega)]
    · rw [if_neg h1]
      split
      · rw [List.getD_eq_getElem?_getD, List.getD_eq_getElem?_getD, List.getElem?_eq_none (by rw [hc.1]; omega), List.getElem?_eq_none (by rw [ha.1]; omega)]
        rfl
      · rfl
  · cases hr

theorem sim_make {o o' : OSI} (g : Grows o o') (h8 : o'.spaces.length ≤ 8) (label : Str) (cs : List Str) (u : Bool) :
    Sim (· = ·) (OpExpr.make o label cs u) (OpExpr.make o' label cs u) := by
  obtain ⟨k, hk⟩ := g.exists_k
  unfold OpExpr.make
  refine Sim.foldlM _ ?_ _ _ rfl
  rintro s _ b _ rfl
  refine (sim_countOps g hk _).bind (fun ca ca' h => ?_)
  rw [hk]
  exact (mk2_grows (by omega) h.1 h.2).bindEq (fun _ => Sim.refl _)

/-! ## `operator_expr` -/

theorem sim_vecGet {n k : Nat} {c c' : List Int} (h : Padded n k c c') (s : Int) : Sim (· = ·) (vecGet c s) (vecGet c' s) := by
  intro x hx
  refine ⟨x, ?_, rfl⟩
  unfold vecGet at hx ⊢
  split at hx
  · rename_i h0
    rw [if_pos h0]
    cases hg : c[s.toNat]? with
    | none => rw [hg] at hx; cases hx
    | some y =>
      rw [hg] at hx
      rw [h.2, pad, List.getElem?_append_left (List.getElem?_eq_some_iff.1 hg).1, hg]
      exact hx
  · cases hx

theorem sim_vecSet {n k : Nat} {c c' : List Int} (h : Padded n k c c') (s x : Int) : Sim (Padded n k) (vecSet c s x) (vecSet c' s x) := by
  intro r hr
  unfold vecSet at hr ⊢
  split at hr
  · rename_i h0
    cases hr
    rw [if_pos ⟨h0.1, by rw [h.2, pad, List.length_append]; omega⟩]
    exact ⟨_, rfl, by simpa using h.1, by rw [h.2, pad, pad, List.set_append_left _ _ h0.2]⟩
  · cases hr

theorem sim_annCounts {o o' : OSI} (g : Grows o o') {k : Nat} (hk : o'.spaces.length = o.spaces.length + k) (toks : List Str) :
    Sim (Padded o.spaces.length k) (annCounts o toks) (annCounts o' toks) := by
  unfold annCounts
  refine Sim.foldlM (R := Padded o.spaces.length k) _ ?_ _ _ (padded_zero hk)
  intro s _ a b hab
  exact (sim_labelToSpace g _).bindEq (fun p => (sim_vecGet hab p).bindEq (fun n => sim_vecSet hab p _))

/-- relation between the states of the second loop -/
def PadM (n k : Nat) (s s' : MakeState) : Prop :=
  Padded n k s.creCount s'.creCount ∧ Padded n k s.annCount s'.annCount ∧ s'.cre = s.cre ∧ s'.ann = s.ann

theorem sim_makeStep {o o' : OSI} (g : Grows o o') {k : Nat} {st st' : MakeState} (h : PadM o.spaces.length k st st') (s : Str) :
    Sim (PadM o.spaces.length k) (makeStep o st s) (makeStep o' st' s) := by
  obtain ⟨h1, h2, h3, h4⟩ := h
  unfold makeStep
  refine (sim_labelToSpace g _).bindEq (fun p => ?_)
  split
  · exact (sim_vecGet h1 p).bindEq (fun n => (sim_vecSet h1 p _).bind (fun a b hab => Sim.pure ⟨hab, h2, by dsimp only; rw [h3], h4⟩))
  · exact (sim_vecGet h2 p).bindEq (fun n => (sim_vecSet h2 p _).bind (fun a b hab => Sim.pure ⟨h1, hab, h3, by dsimp only; rw [h4]⟩))

theorem sim_componentTerm {o o' : OSI} (g : Grows o o') (label s : Str) (b : Bool) (y : Symmetry) (c : Rational) :
    Sim (· = ·) (componentTerm o label s b y c) (componentTerm o' label s b y c) := by
  obtain ⟨k, hk⟩ := g.exists_k
  unfold componentTerm
  refine (sim_annCounts g hk _).bind (fun a a' ha => ?_)
  refine Sim.bind (R := PadM o.spaces.length k) (Sim.foldlM (R := PadM o.spaces.length k) _ (fun s _ a b h => sim_makeStep g h s) _ _ ⟨padded_zero hk, ha, rfl, rfl⟩)
    (fun st st' h => Sim.pure ?_)
  rw [h.2.2.1, h.2.2.2]

theorem sim_operatorExpr {o o' : OSI} (g : Grows o o') (label : Str) (cs : List Str) (b : Bool) (y : Symmetry) (c : Rational) :
    Sim (· = ·) (operatorExpr o label cs b y c) (operatorExpr o' label cs b y c) := by
  unfold operatorExpr
  refine Sim.foldlM _ ?_ _ _ rfl
  rintro s _ r _ rfl
  exact (sim_componentTerm g label s b y c).bindEq (fun _ => Sim.refl _)

/-! ## the Python `compile_einsum` -/

theorem dictGet_append {κ ν : Type} [DecidableEq κ] (m n : List (κ × ν)) (k : κ) {v : ν} (h : dictGet m k = some v) : dictGet (m ++ n) k = some v := by
  unfold dictGet at h ⊢
  cases hf : m.find? (fun p => decide (p.1 = k)) with
  | none => rw [hf] at h; cases h
  | some p => rw [List.find?_append, hf, ← h, hf]; rfl

/-- relation between the states of the allocation of letters: more unused names after the known ones -/
def PadL (more : List (Char × List Str)) (s s' : PyLetters) : Prop := s'.dict = s.dict ∧ s'.unused = s.unused ++ more

theorem sim_pyLetter {o o' : OSI} (g : Grows o o') {more} (i : Index) {s s' : PyLetters} (h : PadL more s s') :
    Sim (fun a b => a.1 = b.1 ∧ PadL more a.2 b.2) (pyLetter o i s) (pyLetter o' i s') := by
  unfold pyLetter
  refine (sim_index_str g i).bindEq (fun name => ?_)
  rw [h.1]
  split
  · exact Sim.pure ⟨rfl, h⟩
  · cases name with
    | nil => exact Sim.error
    | cons l rest =>
      dsimp only
      cases hd : dictGet s.unused l with
      | none => exact Sim.error
      | some xs =>
        cases xs with
        | nil => exact Sim.error
        | cons x xs =>
          rw [h.2, dictGet_append _ _ _ hd]
          exact Sim.pure ⟨rfl, rfl, rfl⟩

theorem sim_pyIndices {o o' : OSI} (g : Grows o o') {more} (l : List Index) : ∀ {s s' : PyLetters}, PadL more s s' →
    Sim (fun a b => a.1 = b.1 ∧ PadL more a.2 b.2) (pyIndices o l s) (pyIndices o' l s') := by
  induction l with
  | nil => intro s s' h; exact Sim.ok ⟨rfl, h⟩
  | cons i l ih =>
    intro s s' h
    rw [pyIndices, pyIndices]
    exact (sim_pyLetter g i h).bind (fun a b hab => (ih hab.2).bind (fun c d hcd => Sim.pure ⟨by rw [hab.1, hcd.1], hcd.2⟩))

theorem sim_pyArg {o o' : OSI} (g : Grows o o') (t : Tensor) : Sim (· = ·) (pyArg o t) (pyArg o' t) := by
  unfold pyArg
  refine (Sim.mapMEq _ (fun i _ => ?_)).bindEq (fun _ => Sim.refl _)
  exact (sim_index_str g i).bindEq (fun _ => Sim.refl _)

theorem sim_pyTensors {o o' : OSI} (g : Grows o o') {more} (l : List Tensor) : ∀ {s s' : PyLetters}, PadL more s s' →
    Sim (fun a b => a.1 = b.1 ∧ a.2.1 = b.2.1) (pyTensors o l s) (pyTensors o' l s') := by
  induction l with
  | nil => intro s s' h; exact Sim.ok ⟨rfl, rfl⟩
  | cons i l ih =>
    intro s s' h
    rw [pyTensors, pyTensors]
    exact (sim_pyArg g i).bindEq (fun a => (sim_pyIndices g _ h).bind (fun b c hbc => (ih hbc.2).bind (fun d e hde =>
      Sim.pure ⟨by rw [hde.1], by rw [hbc.1, hde.2]⟩)))

theorem sim_compileEinsumPy {o o' : OSI} (g : Grows o o') (fmt : Rational → Str) (q : Equation) :
    Sim (· = ·) (compileEinsumPy o fmt q) (compileEinsumPy o' fmt q) := by
  obtain ⟨more, hm⟩ := g.spaces
  unfold compileEinsumPy
  refine Sim.bind (sim_pyTensors g (more := more.map (fun s => (s.label, s.indices))) _ ⟨rfl, ?_⟩) (fun a b hab => ?_)
  · unfold OSI.toDict; rw [hm, List.map_append]
  · dsimp only
    rw [hab.1, hab.2]
    cases q.lhs.tensors with
    | nil => exact Sim.error
    | cons t _ =>
      dsimp only
      split
      · split
        · exact Sim.error
        · exact (sim_spaceLabels g t).bindEq (fun _ => Sim.error)
      · exact Sim.refl _

end Wicked
