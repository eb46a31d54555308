import Verif.Props.WickGraph
import Verif.Spec.OrbitalSum
/-! # Bosonic spaces in `contract`: C58 -/
namespace Wicked
open Wick Rational

theorem spaceType_congr {o o' : OSI} (h : o.spaces.map (·.spaceType) = o'.spaces.map (·.spaceType)) :
    o.spaceType = o'.spaceType := by
  funext p
  have h' : ∀ n : Nat, (o.spaces[n]?).map (·.spaceType) = (o'.spaces[n]?).map (·.spaceType) := by
    intro n; rw [← List.getElem?_map, ← List.getElem?_map, h]
  unfold OSI.spaceType OSI.space
  split
  · have := h' p.toNat
    cases h1 : o.spaces[p.toNat]? <;> cases h2 : o'.spaces[p.toNat]? <;> rw [h1, h2] at this <;>
      simp [bind, Except.bind, pure, Except.pure] at this ⊢
    exact this
  · rfl

theorem canonicalize_congr {o o' : OSI} (h : o.spaces.length = o'.spaces.length) (t : STerm) :
    t.canonicalize o = t.canonicalize o' := by
  have h1 : ∀ l, numIndicesPerSpace o l = numIndicesPerSpace o' l := by
    intro l; unfold numIndicesPerSpace; rw [h]
  have h2 : ∀ ts x b, STerm.tensorConnectivity o ts x b = STerm.tensorConnectivity o' ts x b := by
    intro ts x b; unfold STerm.tensorConnectivity; simp only [h1]
  have h3 : ∀ ts x, STerm.score o ts x = STerm.score o' ts x := by
    intro ts x; unfold STerm.score; simp only [h1, h2]
  have h4 : ∀ ts, STerm.simplifyGuard o ts = STerm.simplifyGuard o' ts := by
    intro ts; unfold STerm.simplifyGuard; rw [h]
  have h3' : STerm.score o t.tensors = STerm.score o' t.tensors := funext (h3 _)
  unfold STerm.canonicalize
  simp only [h3', h4, h]

theorem processOne_congr {o o' : OSI} (h : o.spaces.map (·.spaceType) = o'.spaces.map (·.spaceType)) (cfg : WickCfg)
    (ops : OperatorProduct) (cs : CContr) (f : Rational) : processOne o cfg ops cs f = processOne o' cfg ops cs f := by
  have hl : o.spaces.length = o'.spaces.length := by simpa using congrArg List.length h
  have hs := spaceType_congr h
  have he : ∀ sq m, evalStep o sq m = evalStep o' sq m := by
    intro sq m; funext st e; unfold evalStep; rw [hl, hs]
  have hev : ∀ ops cs f, evaluate o ops cs f = evaluate o' ops cs f := by
    intro ops cs f; unfold evaluate; simp only [hl, he]
  unfold processOne
  simp only [hl, hev, canonicalize_congr hl]

/-- **C58**: `contract` never looks at the field types: with the same space types, a registry of bosonic spaces gives
exactly the same result as a registry of fermionic ones, so bosonic operators get the signs of fermions. -/
theorem C58_field_types_ignored {o o' : OSI} (h : o.spaces.map (·.spaceType) = o'.spaces.map (·.spaceType)) (cfg : WickCfg)
    (f : Rational) (ops : OperatorProduct) (minr maxr : Int) : contract o cfg f ops minr maxr = contract o' cfg f ops minr maxr := by
  have hl : o.spaces.length = o'.spaces.length := by simpa using congrArg List.length h
  have hs := spaceType_congr h
  have he : elementaryContractions o cfg ops = elementaryContractions o' cfg ops := by
    have : elemSpace o cfg ops = elemSpace o' cfg ops := by funext s; unfold elemSpace; rw [hs]
    unfold elementaryContractions; rw [hl, this]
  have hp : ∀ el cvs, processContractions o cfg el cvs f ops minr maxr = processContractions o' cfg el cvs f ops minr maxr := by
    intro el cvs; unfold processContractions; simp only [processOne_congr h]
  have ht : ∀ el cvs, processThreads o cfg el cvs f ops minr maxr = processThreads o' cfg el cvs f ops minr maxr := by
    intro el cvs
    have : processSingle o cfg el f ops minr maxr = processSingle o' cfg el f ops minr maxr := by
      funext cv; unfold processSingle; simp only [processOne_congr h]
    unfold processThreads; rw [this]
  unfold contract
  simp only [he, hl, hp, ht]

/-- one bosonic unoccupied space -/
def exB : OSI := ⟨[⟨'b', .boson, .unoccupied, [], []⟩], [('b', 0)], []⟩
/-- the same with a fermionic space -/
def exF : OSI := ⟨[⟨'b', .fermion, .unoccupied, [], []⟩], [('b', 0)], []⟩

example : exB.spaces.map (·.spaceType) = exF.spaces.map (·.spaceType) ∧ exB ≠ exF := by decide

/-- a system with one orbital, all tensor elements 1, and commuting operators, as inside a bosonic normal-ordered product -/
def unitSystem : OrbSystem Unit ℚ ℚ := ⟨fun _ => {()}, fun _ _ _ => 1, fun _ _ => 1⟩

theorem unitSystem_value (t : STerm) : unitSystem.value t = 1 := by
  unfold OrbSystem.value OrbSystem.inst unitSystem
  have : ∀ {α : Type} (l : List α), (l.map (fun _ => (1 : ℚ))).prod = 1 := by
    intro α l; induction l <;> simp [*]
  simp [this]

/-- **C58**, negation: for the product of `x^p b_p` and `y_q b†_q` over bosons, the uncontracted part
`Σ x^p y_q {b_p b†_q} = Σ x^p y_q b†_q b_p` comes out with a minus sign: in a system where all bosonic operators commute
and the sum is 1, the value of the result is -1. -/
theorem C58_boson_sign : (∀ s s' x y, unitSystem.op s x * unitSystem.op s' y = unitSystem.op s' y * unitSystem.op s x) ∧
    ∃ e, contract exB {} (Rational.ofInt 1) [mkOp "x" [(0, 1)], mkOp "y" [(1, 0)]] 2 2 = .ok e ∧
      Lin.eval unitSystem.value e = -1 := by
  refine ⟨fun _ _ _ _ => mul_comm _ _, ?_⟩
  have hd : ∃ e, contract exB {} (Rational.ofInt 1) [mkOp "x" [(0, 1)], mkOp "y" [(1, 0)]] 2 2 = .ok e ∧
      e.map Prod.snd = [⟨-1, 1⟩] := by
    refine ⟨[(⟨false, [⟨.creation, ⟨0, 1⟩⟩, ⟨.annihilation, ⟨0, 0⟩⟩],
      [⟨['x'], [], [⟨0, 0⟩], .antisymmetric, false⟩, ⟨['y'], [⟨0, 1⟩], [], .antisymmetric, false⟩]⟩, ⟨-1, 1⟩)], by decide +kernel, rfl⟩
  obtain ⟨e, h1, h2⟩ := hd
  refine ⟨e, h1, ?_⟩
  rcases e with _ | ⟨⟨t, c⟩, _ | ⟨p, e⟩⟩
  · simp at h2
  · simp only [List.map_cons, List.map_nil, List.cons.injEq, and_true] at h2
    simp [Lin.eval, unitSystem_value, h2, toRat]
  · simp at h2

end Wicked
