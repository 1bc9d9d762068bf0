import Verif.Ctc.Function
import Verif.Props.Static
import Verif.Props.Boxes

/-!
# C85: `CtcFunction` on tubes, `CtcConstell`
-/

namespace Codac.Props
open Codac Codac.Ex

variable {K : Type*} [LinearOrder K]

theorem wf_of_forall₂ {xs : List (Tube K)} {fs : List (K → K)} (h : List.Forall₂ (fun T f => T.WF ∧ T.GatesInEnvelopes ∧ T.Encloses f) xs fs) :
    ∀ T ∈ xs, T.WF := by
  induction h with
  | nil => simp
  | cons a _ ih =>
    intro T hT
    rcases List.mem_cons.mp hT with rfl | hT
    · exact a.1
    · exact ih T hT

/-- **C85**: `CtcFunction(f, y)` on tubes loses no vector trajectory `x(·)` such that `f(x(t)) ∈ y` at all times, if its box contractor
loses no point `v` such that `f(v) ∈ y`; the tubes stay consistent -/
theorem C85_function_keeps {Y : Type*} {f : List K → Y} {y : Set Y} {ctc : Box K → Box K} (hc : ∀ X v, InBox v X → f v ∈ y → InBox v (ctc X))
    {xs ys : List (Tube K)} (h : functionContract ctc xs = some ys) {fs : List (K → K)}
    (hx : List.Forall₂ (fun T g => T.WF ∧ T.GatesInEnvelopes ∧ T.Encloses g) xs fs)
    (hS : ∀ T ∈ xs, ∀ t, T.t0 ≤ t → t ≤ T.tf → f (fs.map (· t)) ∈ y) :
    List.Forall₂ (fun T g => T.WF ∧ T.GatesInEnvelopes ∧ T.Encloses g) ys fs := by
  rw [functionContract_eq (wf_of_forall₂ hx)] at h
  exact C21_static_sound (S := fun v => f v ∈ y) (tmp := false) hc h hx hS

/-- **C85**: it only contracts -/
theorem C85_function_contracts {ctc : Box K → Box K} (hc : ∀ X, BoxLe (ctc X) X) {xs ys : List (Tube K)} (hw : ∀ T ∈ xs, T.WF)
    (h : functionContract ctc xs = some ys) : AllBelow ys xs := by
  rw [functionContract_eq hw] at h
  exact C21_static_contracts hc h

/-- **C85**: it is total on tubes of same slicing, and every envelope becomes the one of the contracted box -/
theorem C85_function_envelopes {ctc : Box K → Box K} (hl : ∀ X, (ctc X).length = X.length) {xs ys : List (Tube K)} (hw : ∀ T ∈ xs, T.WF)
    (h : functionContract ctc xs = some ys) {x : Tube K} (hx : x ∈ xs) {k : Nat} {s : Slice K} (hs : x.slices[k]? = some s) :
    ys.map (fun T => T.codAt k) = ctc (xs.map fun T => T.codAt k) := by
  rw [functionContract_eq hw] at h
  have := C21_static_envelopes hl h hx hs
  rw [if_pos] at this
  · exact this
  · have hb := ((hw x hx).tiles.mem_bounds (List.mem_of_getElem? hs)).2.1.le
    exact icc_intersects_top hb

/-- **C85**: so do the input gates and the last output gates, up to the envelopes -/
theorem C85_function_gates {ctc : Box K → Box K} (hc : ∀ X, BoxLe (ctc X) X) (hm : ∀ X Y, BoxLe X Y → BoxLe (ctc X) (ctc Y))
    {xs ys : List (Tube K)} (hw : ∀ T ∈ xs, T.WF) (h : functionContract ctc xs = some ys) {x : Tube K} (hx : x ∈ xs) {k : Nat} {s : Slice K}
    (hs : x.slices[k]? = some s) :
    BoxLe (ys.map fun T => T.inGAt k) (ctc (xs.map fun T => T.inGAt k)) ∧
      (k + 1 = x.slices.length → BoxLe (ys.map fun T => T.outGAt k) (ctc (xs.map fun T => T.outGAt k))) := by
  rw [functionContract_eq hw] at h
  have hb := ((hw x hx).tiles.mem_bounds (List.mem_of_getElem? hs)).2.1.le
  exact C21_static_gates hc hm h hx hs (icc_intersects_top hb)

/-- **C85**: `CtcFunction` and `CtcStatic` of it give the same tubes -/
theorem C85_same_as_static {ctc : Box K → Box K} {xs : List (Tube K)} (hw : ∀ T ∈ xs, T.WF) :
    functionContract ctc xs = staticContract ⊤ false ctc xs := functionContract_eq hw

/-- the contraction is effective on two tubes -/
example : (functionContract capBox [staticX, staticX]).map (fun ys => ys.map fun T => (T.codAt 0, T.inGAt 1, T.outGAt 2)) =
    some [(I 0 2, I 1 2, I 1 2), (I 0 2, I 1 2, I 1 2)] := by decide +kernel

example : ∀ X (v : List ℚ), InBox v X → v ∈ {v | ∀ a ∈ v, a ∈ I 0 2} → InBox v (capBox X) := capBox_keeps

/-! ### `CtcConstell` -/

/-- **C85**: `CtcConstell` on a box of dimension 2 keeps exactly the hull of the positions of the landmarks in the box: the result is in the
box, no position in the box of a landmark is lost, and it is in every box that contains the parts of the landmarks -/
theorem C85_constell {map : List (Box K)} (hmap : ∀ m ∈ map, 2 ≤ m.length) {a : Box K} (ha : a.length = 2) :
    BoxLe (ctcConstell map a) a ∧ (∀ v, InBox v a → (∃ m ∈ map, InBox v (m.take 2)) → InBox v (ctcConstell map a)) ∧
      ∀ Z : Box K, Z.length = 2 → (∀ m ∈ map, BoxLe (a.inter (m.take 2)) Z) → BoxLe (ctcConstell map a) Z := by
  have hlen : ∀ m ∈ map, a.length = (m.take 2).length := fun m hm => by rw [List.length_take, ha, Nat.min_eq_left (hmap m hm)]
  have hin : ∀ m ∈ map, (a.inter (m.take 2)).length = 2 := fun m hm => (inter_le_left (hlen m hm)).length.trans ha
  have small : ∀ Z : Box K, Z.length = 2 → (∀ m ∈ map, BoxLe (a.inter (m.take 2)) Z) → BoxLe (ctcConstell map a) Z := by
    intro Z hZ h
    rw [ctcConstell_eq]
    refine unionFold_le (fun c hc => ?_) (empty_boxLe hZ.symm)
    obtain ⟨m, hm, rfl⟩ := List.mem_map.mp hc
    exact h m hm
  refine ⟨small a ha fun m hm => inter_le_left (hlen m hm), ?_, small⟩
  intro v hv hex
  obtain ⟨m, hm, hvm⟩ := hex
  rw [ctcConstell_eq]
  refine unionFold_keeps (n := 2) (fun c hc => ?_) (by simp [Box.empty]) (.inr ⟨_, List.mem_map_of_mem hm, (inBox_inter (hlen m hm)).mpr ⟨hv, hvm⟩⟩)
  obtain ⟨m', hm', rfl⟩ := List.mem_map.mp hc
  exact hin m' hm'

example : ctcConstell [[.icc 0 1, .icc 0 1, .icc 7 7], [.icc 2 3, .icc 2 3], [.icc 8 9, .icc 0 1]] [.icc (1/2 : ℚ) 5, .icc 0 5] = [.icc (1/2) 3, .icc 0 3] := by
  decide +kernel

end Codac.Props
