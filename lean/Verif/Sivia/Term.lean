import Verif.Sivia.Sound
import Mathlib.Algebra.Order.Archimedean.Basic
import Mathlib.Order.Lattice.Nat

/-!
# SIVIA: termination

The rank of a bounded box is the sum, over its components, of the number of reductions by the factor `c` needed to be smaller than the
precision.
-/

set_option linter.unusedSectionVars false

namespace Codac

variable {K : Type*} [Field K] [LinearOrder K] [IsStrictOrderedRing K]

theorem Itv.width_nonneg (I : Itv K) : 0 ≤ I.width := by
  unfold Itv.width
  split
  · rename_i a b h; exact sub_nonneg.mpr h
  · exact le_refl _

theorem Itv.width_mono {I J : Itv K} (h : I ≤ J) (hJ : J.isUnbounded = false) : I.width ≤ J.width ∧ I.isUnbounded = false := by
  cases I with
  | empty => exact ⟨J.width_nonneg, rfl⟩
  | mk lo hi p =>
    cases J with
    | empty => exact (Itv.not_mk_le_empty h).elim
    | mk lo' hi' p' =>
      rw [Itv.le_mk_mk] at h
      obtain ⟨h1, h2⟩ := h
      cases lo' with
      | none => simp [Itv.isUnbounded] at hJ
      | some a' =>
        cases hi' with
        | none => simp [Itv.isUnbounded] at hJ
        | some b' =>
          cases lo with
          | none => simp [Itv.loLeLo] at h1
          | some a =>
            cases hi with
            | none => simp [Itv.hiLeHi] at h2
            | some b => exact ⟨sub_le_sub h2 h1, rfl⟩

namespace Sivia

/-- number of reductions by `c` making `w` smaller than `p` -/
noncomputable def rk (c p w : K) : Nat := sInf {k | c ^ k * w < p}

/-- rank of a box -/
noncomputable def boxRank (c p : K) (X : Box K) : Nat := (X.map fun I => rk c p I.width).sum

variable {c p : K}

theorem rk_spec [Archimedean K] (_ : 0 ≤ c) (hc1 : c < 1) (hp : 0 < p) {w : K} (hw : 0 ≤ w) : c ^ (rk c p w) * w < p := by
  refine Nat.sInf_mem (s := {k | c ^ k * w < p}) ?_
  rcases hw.eq_or_lt with rfl | hw
  · exact ⟨0, by simpa using hp⟩
  · obtain ⟨n, hn⟩ := exists_pow_lt_of_lt_one (div_pos hp hw) hc1
    exact ⟨n, by rwa [lt_div_iff₀ hw] at hn⟩

theorem rk_le {w : K} {k : Nat} (h : c ^ k * w < p) : rk c p w ≤ k := Nat.sInf_le h

theorem rk_mono [Archimedean K] (hc0 : 0 ≤ c) (hc1 : c < 1) (hp : 0 < p) {w w' : K} (hw : 0 ≤ w) (h : w' ≤ w) : rk c p w' ≤ rk c p w :=
  rk_le (lt_of_le_of_lt (mul_le_mul_of_nonneg_left h (pow_nonneg hc0 _)) (rk_spec hc0 hc1 hp hw))

theorem rk_lt [Archimedean K] (hc0 : 0 ≤ c) (hc1 : c < 1) (hp : 0 < p) {w w' : K} (hw : p ≤ w) (h : w' ≤ c * w) :
    rk c p w' < rk c p w := by
  have hs := rk_spec hc0 hc1 hp (hp.le.trans hw)
  cases hk : rk c p w with
  | zero => rw [hk, pow_zero, one_mul] at hs; exact absurd hs (not_lt.mpr hw)
  | succ k =>
    rw [hk, pow_succ, mul_assoc] at hs
    exact Nat.lt_succ_of_le (rk_le (lt_of_le_of_lt (mul_le_mul_of_nonneg_left h (pow_nonneg hc0 _)) hs))

theorem boxRank_mono [Archimedean K] (hc0 : 0 ≤ c) (hc1 : c < 1) (hp : 0 < p) {X Y : Box K} (h : BoxLe X Y)
    (hb : ∀ I ∈ Y, I.isUnbounded = false) : boxRank c p X ≤ boxRank c p Y ∧ ∀ I ∈ X, I.isUnbounded = false := by
  unfold BoxLe at h
  induction h with
  | nil => simp [boxRank]
  | @cons I J X Y h1 h2 ih =>
    obtain ⟨h3, h4⟩ := ih fun L hL => hb L (List.mem_cons_of_mem _ hL)
    obtain ⟨h5, h6⟩ := Itv.width_mono h1 (hb J (by simp))
    have := rk_mono hc0 hc1 hp J.width_nonneg h5
    refine ⟨?_, ?_⟩
    · simp only [boxRank, List.map_cons, List.sum_cons] at h3 ⊢
      omega
    · intro L hL
      rcases List.mem_cons.mp hL with rfl | hL
      · exact h6
      · exact h4 L hL

theorem boxRank_lt [Archimedean K] (hc0 : 0 ≤ c) (hc1 : c < 1) (hp : 0 < p) {X Y : Box K} (h : BoxLe X Y)
    (hb : ∀ I ∈ Y, I.isUnbounded = false) {i : Nat} (hi : p ≤ (Y.getD i ⊥).width) (hlt : (X.getD i ⊥).width ≤ c * (Y.getD i ⊥).width) :
    boxRank c p X < boxRank c p Y := by
  unfold BoxLe at h
  induction h generalizing i with
  | nil =>
    exfalso
    simp only [List.getD_nil] at hi
    have : (⊥ : Itv K).width = 0 := rfl
    rw [this] at hi
    exact absurd hi (not_le.mpr hp)
  | @cons I J X Y h1 h2 ih =>
    have hb' : ∀ I ∈ Y, I.isUnbounded = false := fun L hL => hb L (List.mem_cons_of_mem _ hL)
    simp only [boxRank, List.map_cons, List.sum_cons]
    cases i with
    | zero =>
      simp only [List.getD_cons_zero] at hi hlt
      have := rk_lt hc0 hc1 hp hi hlt
      have h3 := (boxRank_mono hc0 hc1 hp h2 hb').1
      simp only [boxRank] at h3
      omega
    | succ i =>
      simp only [List.getD_cons_succ] at hi hlt
      have h3 := ih hb' hi hlt
      have := rk_mono hc0 hc1 hp J.width_nonneg (Itv.width_mono h1 (hb J (by simp))).1
      simp only [boxRank] at h3
      omega

theorem exists_wide {X : Box K} (hp : 0 < p) (hb : ∀ I ∈ X, I.isUnbounded = false) (h : Box.maxDiamLt p X = false) :
    ∃ I ∈ X, p ≤ I.width := by
  unfold Box.maxDiamLt at h
  rw [List.all_eq_false] at h
  obtain ⟨I, hI, h⟩ := h
  refine ⟨I, hI, ?_⟩
  have hbI := hb I hI
  cases I with
  | empty => simp [Itv.diamBelow, hp] at h
  | mk lo hi q =>
    cases lo with
    | none => simp [Itv.isUnbounded] at hbI
    | some a =>
      cases hi with
      | none => simp [Itv.isUnbounded] at hbI
      | some b => simpa [Itv.diamBelow, Itv.width] using h

/-- the rank decreases at each bisection -/
theorem boxRank_bis [Archimedean K] {bis : Box K → Box K × Box K} (hb : IsBis bis) (hl : IsLargestFirst c bis) (hc0 : 0 ≤ c)
    (hc1 : c < 1) (hp : 0 < p) {X : Box K} (hX : ∀ I ∈ X, I.isUnbounded = false) (hs : Box.maxDiamLt p X = false) :
    boxRank c p (bis X).1 < boxRank c p X ∧ boxRank c p (bis X).2 < boxRank c p X := by
  obtain ⟨I, hI, hw⟩ := exists_wide hp hX hs
  have hne : X ≠ [] := by rintro rfl; simp at hI
  obtain ⟨i, hmax, h1, h2⟩ := hl X hX ⟨I, hI, lt_of_lt_of_le hp hw⟩
  have hi := hw.trans (hmax I hI)
  exact ⟨boxRank_lt hc0 hc1 hp (hb.le₁ X hne) hX hi h1, boxRank_lt hc0 hc1 hp (hb.le₂ X hne) hX hi h2⟩

/-- termination of the loop of SIVIA for any step which returns a part of the box -/
theorem loop_terminates [Archimedean K] {bis : Box K → Box K × Box K} (hb : IsBis bis) (hl : IsLargestFirst c bis) (hc0 : 0 ≤ c)
    (hc1 : c < 1) (hp : 0 < p) {x0 y0 : Box K} (h0 : x0 ≠ []) (hx0 : ∀ I ∈ x0, I.isUnbounded = false) {step : Box K → Step K}
    (hstep : ∀ X Z, BoxLe X (x0 ++ y0) → (step X).rem = some Z → BoxLe Z X) :
    ∃ N, ∀ fuel, N ≤ fuel → ∀ r, ∃ r', loop step (fun Z => Box.maxDiamLt p (Z.take x0.length)) (splitXY bis x0.length y0) fuel
      [x0 ++ y0] r = some r' := by
  refine ⟨2 ^ (boxRank c p x0 + 1) - 1, fun fuel hf r => ?_⟩
  refine loop_total (Q := fun X => BoxLe X (x0 ++ y0)) (rank := fun X => boxRank c p (X.take x0.length)) ?_ ?_ ?_
  · intro X Z hX hr hs
    have hZX := hstep X Z hX hr
    have hZ := hZX.trans hX
    have ht : BoxLe (Z.take x0.length) x0 := by simpa using boxLe_take hZ x0.length
    have htX : BoxLe (X.take x0.length) x0 := by simpa using boxLe_take hX x0.length
    have hbZ := (boxRank_mono hc0 hc1 hp ht hx0).2
    have hbX := (boxRank_mono hc0 hc1 hp htX hx0).2
    obtain ⟨h1, h2⟩ := boxRank_bis hb hl hc0 hc1 hp hbZ hs
    have hle := (boxRank_mono hc0 hc1 hp (boxLe_take hZX x0.length) hbX).1
    have hne : Z.take x0.length ≠ [] := by
      intro h; rw [h] at ht; cases ht; exact h0 rfl
    have hall := splitXY_le hb h0 hZ
    have hl1 : (bis (Z.take x0.length)).1.length = x0.length := ((hb.le₁ _ hne).trans ht).length
    have hl2 : (bis (Z.take x0.length)).2.length = x0.length := ((hb.le₂ _ hne).trans ht).length
    refine ⟨_, _, rfl, hall _ (by simp [splitXY]), hall _ (by simp [splitXY]), ?_, ?_⟩
    · rw [List.take_left' hl1]; omega
    · rw [List.take_left' hl2]; omega
  · intro X hX
    simp only [List.mem_cons, List.not_mem_nil, or_false] at hX
    subst hX; exact BoxLe.refl _
  · simpa using hf

end Sivia

end Codac
