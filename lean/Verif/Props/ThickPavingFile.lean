import Verif.Thick.PavingFile
import Verif.Props.ThickPaving

/-!
# C108: thick pavings in files
-/

set_option linter.unusedSectionVars false

namespace Codac.Props

open SPav TPav TPav.TNode

variable {K : Type*} [Field K] [LinearOrder K] [IsStrictOrderedRing K]

/-- the same tree with the same values, whatever the boxes -/
def SameValues : TNode K → TNode K → Prop
  | .leaf b v, .leaf b' v' => b.length = b'.length ∧ v = v'
  | .node b v l r, .node b' v' l' r' => (b.length = b'.length ∧ v = v') ∧ SameValues l l' ∧ SameValues r r'
  | _, _ => False

theorem nonNil_of_regular {n : Nat} (hn : 0 < n) {t : TNode K} (h : Regular n t) : NonNil t := by
  induction t with
  | leaf b v => exact ne_nil_of_pos hn h.1
  | node b v l r ihl ihr => exact ⟨ne_nil_of_pos hn h.1.1, ihl h.2.2.1, ihr h.2.2.2⟩

theorem sameValues_loaded (t : TNode K) : SameValues t (loaded t) := by
  induction t with
  | leaf b v => exact ⟨by simp, rfl⟩
  | node b v l r ihl ihr => exact ⟨⟨by simp, rfl⟩, ihl, ihr⟩

/-- C108, what is read back from the file written by `save`: the same tree with the same values. Missing: the same boxes, see `C108_boxes_fails` -/
theorem C108_values_partial {n : Nat} (hn : 0 < n) {t : TNode K} (h : Regular n t) : ∃ t', (∀ fuel, height t ≤ fuel → load fuel (save t) = some (t', [])) ∧ SameValues t t' := by
  refine ⟨loaded t, fun fuel hf => ?_, sameValues_loaded t⟩
  have := load_save (nonNil_of_regular hn h) hf []
  rwa [List.append_nil] at this

theorem loaded_box_degenerated {t : TNode K} : ∀ I ∈ (loaded t).box, I.isDegenerated = true := by
  have key : ∀ o : Option K, (o.elim ⊥ Itv.point : Itv K).isDegenerated = true := by
    intro o
    cases o with
    | none => rfl
    | some a => simp [Itv.point, Itv.isDegenerated]
  intro I hI
  cases t with
  | leaf b v =>
    simp only [loaded, TNode.box, List.mem_map] at hI
    obtain ⟨_, _, rfl⟩ := hI
    exact key _
  | node b v l r =>
    simp only [loaded, TNode.box, List.mem_map] at hI
    obtain ⟨_, _, rfl⟩ := hI
    exact key _

/-- C108: no paving is read back: whatever the paving (of a box which is not flat), the box of the paving read from its file is flat, so that it is
another paving, and the answer of `contains` is `MAYBE` on every box which has a point out of it -/
theorem C108_boxes_fails {n : Nat} (hn : 0 < n) {t : TNode K} (h : Regular n t) :
    ∃ t', (∀ fuel, height t ≤ fuel → load fuel (save t) = some (t', [])) ∧ isFlat t'.box = true ∧ t'.box ≠ t.box ∧
      ∀ X : Box K, X.length = n → X.isSubset t'.box = false → TPav.contains t' X = some .maybe := by
  have hlen : (loaded t).box.length = n := by
    rw [← h.root.1]; cases t <;> simp [loaded, TNode.box]
  have hflat : isFlat (loaded t).box = true := by
    unfold isFlat
    cases e : (loaded t).box with
    | nil => rw [e] at hlen; simp at hlen; omega
    | cons I X =>
      have := loaded_box_degenerated (t := t) I (by rw [e]; simp)
      simp [this]
  refine ⟨loaded t, fun fuel hf => ?_, hflat, fun he => ?_, fun X hX hsub => ?_⟩
  · have := load_save (nonNil_of_regular hn h) hf []
    rwa [List.append_nil] at this
  · have hs := h.root.2.2
    rw [← he] at hs
    cases e : (loaded t).box with
    | nil => rw [e] at hlen; simp at hlen; omega
    | cons I X =>
      have h1 := loaded_box_degenerated (t := t) I (by rw [e]; simp)
      rw [e] at hs
      rw [hs.tail.1] at h1
      cases h1
  · have hi : isFlat ((loaded t).box.inter X) = true := by
      have hl : (loaded t).box.length = X.length := hlen.trans hX.symm
      have hle := inter_le_left hl
      unfold isFlat
      cases e : (loaded t).box with
      | nil => rw [e] at hlen; simp at hlen; omega
      | cons I Z =>
        have h1 := loaded_box_degenerated (t := t) I (by rw [e]; simp)
        rw [e] at hle
        generalize Box.inter (I :: Z) X = Y at hle
        cases hle with
        | @cons J _ Y' _ h2 _ =>
          have : J.isDegenerated = true := by
            by_contra hc
            rw [Bool.not_eq_true] at hc
            have hs : Solid [J] := by unfold Solid; simp [hc]
            have hm := (midBox_interior hs).inBox
            generalize midBox [J] = m at hm
            cases hm with
            | cons hm _ =>
              rcases exists_ne hc hm with ⟨c, hc', hlt⟩ | ⟨c, hc', hlt⟩
              · have := not_degenerated_of_two (Itv.mem_of_le h2 hc') (Itv.mem_of_le h2 hm) hlt
                rw [h1] at this; cases this
              · have := not_degenerated_of_two (Itv.mem_of_le h2 hm) (Itv.mem_of_le h2 hc') hlt
                rw [h1] at this; cases this
          simp [this]
    have hloop : labelLoop X (loaded t).size [loaded t] .empty = some .empty := by
      obtain ⟨m, hm⟩ := Nat.exists_eq_succ_of_ne_zero (Nat.pos_iff_ne_zero.1 (TPav.size_pos (loaded t)))
      rw [hm]
      cases hL : loaded t with
      | leaf b v =>
        rw [hL] at hi
        simp only [TNode.box] at hi
        rw [labelLoop, if_pos hi]
        cases m <;> rfl
      | node b v l r =>
        rw [hL] at hi
        simp only [TNode.box] at hi
        rw [labelLoop, if_pos hi]
        cases m <;> rfl
    unfold TPav.contains
    rw [hloop, hsub]
    rfl

/-- a paving, written and read -/
example (t : TNode ℚ) (h : stairTree = some t) : Regular 1 t :=
  (C106_build stairTest_ok (C106_bisector (1 / 2) (by norm_num)) stairBox_ok h).2.2.2.1

/-- the leaves which are read -/
example : (stairTree.bind fun t => (load 10 (save t)).map fun p => p.1.leaves) =
    some [([Itv.point 0], .in_), ([Itv.point 1], .maybeIn), ([Itv.point (3 / 2)], .maybe), ([Itv.point 2], .maybeOut),
      ([Itv.point (5 / 2)], .out), ([Itv.point 3], .out)] := by decide +kernel

end Codac.Props
