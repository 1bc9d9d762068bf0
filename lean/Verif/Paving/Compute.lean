import Verif.Paving.Subsets
import Verif.Sivia.Term

/-!
# `SIVIAPaving::compute`: tiling, labels and termination
-/

set_option linter.unusedSectionVars false

namespace Codac
namespace Paving

variable {K : Type*} [Field K] [LinearOrder K] [IsStrictOrderedRing K]
variable {bis : Box K → Box K × Box K} {classify : Box K → Option SetValue} {val : SetValue}

theorem compute_box {n : Nat} {X : Box K} {P : Paving K} (h : compute bis classify val n X = some P) : P.box = X := by
  cases n with
  | zero => simp [compute] at h
  | succ n =>
    rw [compute] at h
    split at h
    · simp only [Option.some.injEq] at h; subst h; rfl
    · split at h
      · simp only [Option.some.injEq] at h; subst h; rfl
      · cases h

/-- the computed paving: well-formed, its leaves carry the value of the tests on their boxes -/
theorem compute_spec (hb : IsBis bis) {n d : Nat} (hd : 0 < d) {X : Box K} (hX : X.length = d) {P : Paving K}
    (h : compute bis classify val n X = some P) :
    P.WF d ∧ ∀ t path, (∀ p ∈ P.leaves t path, classify p.box = some p.value ∧ BoxLe p.box X) ∧
      (∀ v, InBox v X → ∃ p ∈ P.leaves t path, InBox v p.box) ∧
      (P.leaves t path).Pairwise (fun p q => ∀ v, InInterior v p.box → ¬ InInterior v q.box) := by
  induction n generalizing X P with
  | zero => simp [compute] at h
  | succ n ih =>
    have hne : X ≠ [] := by rintro rfl; simp at hX; omega
    rw [compute] at h
    cases hc : classify X with
    | some v =>
      rw [hc] at h
      simp only [Option.some.injEq] at h
      subst h
      refine ⟨hX, fun t path => ⟨?_, ?_, ?_⟩⟩
      · intro p hp
        simp only [leaves, List.mem_cons, List.not_mem_nil, or_false] at hp
        subst hp; exact ⟨hc, BoxLe.refl _⟩
      · intro w hw; exact ⟨_, by simp [leaves]; rfl, hw⟩
      · simp [leaves]
    | none =>
      rw [hc] at h
      dsimp only at h
      cases h1 : compute bis classify val n (bis X).1 with
      | none => rw [h1] at h; cases h
      | some L =>
        cases h2 : compute bis classify val n (bis X).2 with
        | none => rw [h1, h2] at h; cases h
        | some R =>
          rw [h1, h2] at h
          simp only [Option.some.injEq] at h
          subst h
          have hl1 := hb.le₁ X hne
          have hl2 := hb.le₂ X hne
          obtain ⟨wl, sl⟩ := ih (hl1.length.trans hX) h1
          obtain ⟨wr, sr⟩ := ih (hl2.length.trans hX) h2
          refine ⟨⟨hX, by rw [compute_box h1]; exact hl1, by rw [compute_box h2]; exact hl2, wl, wr⟩, fun t path => ?_⟩
          obtain ⟨a1, a2, a3⟩ := sl t (path ++ [false])
          obtain ⟨b1, b2, b3⟩ := sr t (path ++ [true])
          refine ⟨?_, ?_, ?_⟩
          · intro p hp
            simp only [leaves, List.mem_append] at hp
            rcases hp with hp | hp
            · exact ⟨(a1 p hp).1, (a1 p hp).2.trans hl1⟩
            · exact ⟨(b1 p hp).1, (b1 p hp).2.trans hl2⟩
          · intro w hw
            simp only [leaves, List.mem_append]
            rcases hb.cover X w hne hw with hw | hw
            · obtain ⟨p, hp, hin⟩ := a2 w hw; exact ⟨p, .inl hp, hin⟩
            · obtain ⟨p, hp, hin⟩ := b2 w hw; exact ⟨p, .inr hp, hin⟩
          · simp only [leaves]
            refine List.pairwise_append.mpr ⟨a3, b3, ?_⟩
            intro p hp q hq w hw1 hw2
            exact hb.disj X w hne (hw1.of_le (a1 p hp).2) (hw2.of_le (b1 q hq).2)

/-- termination -/
theorem compute_total [Archimedean K] {c p : K} (hb : IsBis bis) (hl : IsLargestFirst c bis) (hc0 : 0 ≤ c) (hc1 : c < 1) (hp : 0 < p)
    {d : Nat} (hd : 0 < d) (hcl : ∀ X, X.length = d → classify X = none → Box.maxDiamLt p X = false) {X : Box K}
    (hX : X.length = d) (hbd : ∀ I ∈ X, I.isUnbounded = false) {n : Nat} (hn : Sivia.boxRank c p X < n) :
    ∃ P, compute bis classify val n X = some P := by
  induction n generalizing X with
  | zero => omega
  | succ n ih =>
    have hne : X ≠ [] := by rintro rfl; simp at hX; omega
    rw [compute]
    cases hc : classify X with
    | some v => exact ⟨_, rfl⟩
    | none =>
      dsimp only
      obtain ⟨r1, r2⟩ := Sivia.boxRank_bis hb hl hc0 hc1 hp hbd (hcl X hX hc)
      have hl1 := hb.le₁ X hne
      have hl2 := hb.le₂ X hne
      obtain ⟨L, hL⟩ := ih (hl1.length.trans hX) (Sivia.boxRank_mono hc0 hc1 hp hl1 hbd).2 (by omega)
      obtain ⟨R, hR⟩ := ih (hl2.length.trans hX) (Sivia.boxRank_mono hc0 hc1 hp hl2 hbd).2 (by omega)
      rw [hL, hR]
      exact ⟨_, rfl⟩

/-- `get_boxes(val)` without negative value: the boxes of the leaves carrying the value -/
theorem getBoxes_eq {P : Paving K} {v : SetValue} {t : Nat} {path : List Bool} :
    P.getBoxes v .DEFAULT = ((P.leaves t path).filter fun p => p.value.meets v).map (·.box) := by
  induction P generalizing path with
  | leaf b u =>
    simp only [getBoxes, leaves, List.filter_cons, List.filter_nil]
    cases h : SetValue.meets u v <;> simp [SetValue.DEFAULT]
  | node b u l r ihl ihr =>
    simp only [getBoxes, leaves, List.filter_append, List.map_append, ← ihl, ← ihr]
    simp [SetValue.DEFAULT]

end Paving
end Codac
