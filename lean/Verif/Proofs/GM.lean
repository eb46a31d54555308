import Verif.Model.Wick
import Verif.Proofs.TermOrder
import Mathlib.Algebra.BigOperators.Group.List.Basic
/-! Elementary facts about graph matrices -/
namespace Wicked

theorem gm_get_tab (f : Nat → Int × Int) (s : Nat) : (GraphMatrix.tab f).get s = if s < 8 then f s else (0, 0) := by
  unfold GraphMatrix.get GraphMatrix.tab
  by_cases h : s < 8 <;> simp [h]

theorem gm_ext {g h : GraphMatrix} (H : ∀ s < 8, g.get s = h.get s) : g = h := by
  rcases g with ⟨g⟩; rcases h with ⟨h⟩
  congr 1
  ext i hi <;> · have := H i hi; simp [GraphMatrix.get, hi] at this; rw [this]

theorem gm_ext2 {g h : GraphMatrix} (H : ∀ s < 8, g.cre s = h.cre s) (H' : ∀ s < 8, g.ann s = h.ann s) : g = h :=
  gm_ext (fun s hs => Prod.ext (H s hs) (H' s hs))

namespace GraphMatrix

theorem get_zero (s : Nat) : zero.get s = (0, 0) := by
  unfold get zero
  by_cases h : s < 8 <;> simp [h]
@[simp] theorem cre_zero (s : Nat) : zero.cre s = 0 := by simp [cre, get_zero]
@[simp] theorem ann_zero (s : Nat) : zero.ann s = 0 := by simp [ann, get_zero]

theorem get_ge (g : GraphMatrix) {s : Nat} (h : 8 ≤ s) : g.get s = (0, 0) := by
  unfold get
  have : ¬ s < 8 := by omega
  simp [this]
theorem cre_ge (g : GraphMatrix) {s : Nat} (h : 8 ≤ s) : g.cre s = 0 := by simp [cre, get_ge g h]
theorem ann_ge (g : GraphMatrix) {s : Nat} (h : 8 ≤ s) : g.ann s = 0 := by simp [ann, get_ge g h]

theorem cre_setCre (g : GraphMatrix) (s : Nat) (v : Int) (t : Nat) (hs : s < 8) :
    (g.setCre s v).cre t = if t = s then v else g.cre t := by
  unfold setCre cre; rw [gm_get_tab]
  by_cases h : t < 8
  · rw [if_pos h]; split <;> rfl
  · rw [if_neg h, if_neg (by omega), get_ge g (by omega)]
theorem ann_setCre (g : GraphMatrix) (s : Nat) (v : Int) (t : Nat) : (g.setCre s v).ann t = g.ann t := by
  unfold setCre ann; rw [gm_get_tab]
  by_cases h : t < 8
  · rw [if_pos h]; split <;> rfl
  · rw [if_neg h, get_ge g (by omega)]
theorem ann_setAnn (g : GraphMatrix) (s : Nat) (v : Int) (t : Nat) (hs : s < 8) :
    (g.setAnn s v).ann t = if t = s then v else g.ann t := by
  unfold setAnn ann; rw [gm_get_tab]
  by_cases h : t < 8
  · rw [if_pos h]; split <;> rfl
  · rw [if_neg h, if_neg (by omega), get_ge g (by omega)]
theorem cre_setAnn (g : GraphMatrix) (s : Nat) (v : Int) (t : Nat) : (g.setAnn s v).cre t = g.cre t := by
  unfold setAnn cre; rw [gm_get_tab]
  by_cases h : t < 8
  · rw [if_pos h]; split <;> rfl
  · rw [if_neg h, get_ge g (by omega)]

theorem cre_add (ns : Nat) (g h : GraphMatrix) (s : Nat) :
    (add ns g h).cre s = if s < ns then g.cre s + h.cre s else g.cre s := by
  unfold add cre; rw [gm_get_tab]
  by_cases hs : s < 8
  · rw [if_pos hs]; split <;> rfl
  · rw [if_neg hs, get_ge g (by omega), get_ge h (by omega)]; simp
theorem ann_add (ns : Nat) (g h : GraphMatrix) (s : Nat) :
    (add ns g h).ann s = if s < ns then g.ann s + h.ann s else g.ann s := by
  unfold add ann; rw [gm_get_tab]
  by_cases hs : s < 8
  · rw [if_pos hs]; split <;> rfl
  · rw [if_neg hs, get_ge g (by omega), get_ge h (by omega)]; simp
theorem cre_sub (ns : Nat) (g h : GraphMatrix) (s : Nat) :
    (sub ns g h).cre s = if s < ns then g.cre s - h.cre s else g.cre s := by
  unfold sub cre; rw [gm_get_tab]
  by_cases hs : s < 8
  · rw [if_pos hs]; split <;> rfl
  · rw [if_neg hs, get_ge g (by omega), get_ge h (by omega)]; simp
theorem ann_sub (ns : Nat) (g h : GraphMatrix) (s : Nat) :
    (sub ns g h).ann s = if s < ns then g.ann s - h.ann s else g.ann s := by
  unfold sub ann; rw [gm_get_tab]
  by_cases hs : s < 8
  · rw [if_pos hs]; split <;> rfl
  · rw [if_neg hs, get_ge g (by omega), get_ge h (by omega)]; simp

theorem add_sub_cancel (ns : Nat) (g h : GraphMatrix) : add ns (sub ns g h) h = g := by
  apply gm_ext2
  · intro s _; rw [cre_add, cre_sub]; split <;> omega
  · intro s _; rw [ann_add, ann_sub]; split <;> omega

theorem numOps_eq (g : GraphMatrix) :
    g.numOps = ((List.range 8).map (fun s => g.cre s + g.ann s)).sum := by
  unfold numOps
  have h : ∀ (l : List (Int × Int)) (r : Int), l.foldl (fun r p => r + (p.1 + p.2)) r
      = r + (l.map (fun p => p.1 + p.2)).sum := by
    intro l; induction l with
    | nil => intro r; simp
    | cons a l ih => intro r; simp only [List.foldl_cons, List.map_cons, List.sum_cons, ih]; omega
  rw [h, Int.zero_add]
  congr 1
  apply List.ext_getElem
  · simp
  · intro i h1 h2
    simp at h1
    simp [cre, ann, get, h1]

end GraphMatrix

theorem sumNumOps_eq (l : List GraphMatrix) : GraphMatrix.sumNumOps l = (l.map GraphMatrix.numOps).sum := by
  unfold GraphMatrix.sumNumOps
  have h : ∀ (l : List GraphMatrix) (r : Int), l.foldl (fun r p => r + p.numOps) r
      = r + (l.map GraphMatrix.numOps).sum := by
    intro l; induction l with
    | nil => intro r; simp
    | cons a l ih => intro r; simp only [List.foldl_cons, List.map_cons, List.sum_cons, ih]; omega
  rw [h, Int.zero_add]

end Wicked
