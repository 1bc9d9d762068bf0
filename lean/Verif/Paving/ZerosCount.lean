import Verif.Paving.ZerosLocal
import Verif.Paving.DegreeSound

/-!
# The degree and the number of zeros

When the Jacobian matrix is not singular at the zeros, the zeros on the subset are finitely many, and the degree is, up to its sign, the sum of the signs of
the determinants.
-/

namespace Codac.Deg

/-- a point of the region in none of the parts around it is inside the region -/
theorem inside_region {α : Type*} {R : α → RR} {root : RR} {L S O : List α} (hs : Setup R root L S O) {ζ : ℝ × ℝ} (hζ : ζ ∈ region R S)
    (hO : ∀ A ∈ O, ¬ (R A).Mem ζ) : ∃ r > 0, ∀ z, dist z ζ < r → z ∈ region R S := by
  classical
  let V : Set (ℝ × ℝ) := {z | root.Inner z} ∩ ⋂ A ∈ {A | A ∈ L ∧ ¬ (R A).Mem ζ}, {z | (R A).Mem z}ᶜ
  have hclosed : ∀ Q : RR, IsClosed {z : ℝ × ℝ | Q.Mem z} := by
    intro Q
    have : {z : ℝ × ℝ | Q.Mem z} = Set.Icc Q.x0 Q.x1 ×ˢ Set.Icc Q.y0 Q.y1 := by
      ext z
      simp only [Set.mem_ofPred_eq, Set.mem_prod, Set.mem_Icc, RR.Mem]
      tauto
    rw [this]
    exact isClosed_Icc.prod isClosed_Icc
  have hV : IsOpen V := by
    refine (inner_open root).inter (Set.Finite.isOpen_biInter ?_ fun A _ => (hclosed _).isOpen_compl)
    exact (List.finite_toSet L).subset fun A hA => hA.1
  obtain ⟨U, hU, hUζ⟩ := hζ
  have hin := hs.inside U hU
  have hζV : ζ ∈ V := by
    refine ⟨⟨hin.1.trans_le hUζ.1, hUζ.2.1.trans_lt hin.2.1, hin.2.2.1.trans_le hUζ.2.2.1, hUζ.2.2.2.trans_lt hin.2.2.2⟩, ?_⟩
    simp only [Set.mem_iInter]
    exact fun A hA => hA.2
  obtain ⟨r, hr, hball⟩ := Metric.isOpen_iff.1 hV ζ hζV
  refine ⟨r, hr, fun z hz => ?_⟩
  obtain ⟨k1, k2⟩ := hball hz
  have k1 : root.Inner z := k1
  obtain ⟨A, hA, hAz, _⟩ := hs.part z.1 z.2 ⟨k1.1.le, k1.2.1, k1.2.2.1.le, k1.2.2.2⟩
  have hAm : (R A).Mem z := ⟨hAz.1, hAz.2.1.le, hAz.2.2.1, hAz.2.2.2.le⟩
  have hAζ : (R A).Mem ζ := by
    by_contra hc
    simp only [Set.mem_iInter] at k2
    exact k2 A ⟨hA, hc⟩ hAm
  rcases List.mem_append.1 (hs.touch U hU A hA ⟨ζ, hUζ, hAζ⟩) with h | h
  · exact ⟨A, h, hAm⟩
  · exact absurd hAζ (hO A h)

/-- distinct points of a finite set are away from each other -/
theorem exists_gap (Z : Finset (ℝ × ℝ)) : ∃ δ > 0, ∀ ζ ∈ Z, ∀ ξ ∈ Z, ζ ≠ ξ → δ ≤ dist ζ ξ := by
  classical
  by_cases h : Z.offDiag.Nonempty
  · obtain ⟨p, hp, hmin⟩ := Finset.exists_min_image Z.offDiag (fun p => dist p.1 p.2) h
    refine ⟨dist p.1 p.2, dist_pos.2 (Finset.mem_offDiag.1 hp).2.2, fun ζ h1 ξ h2 hne => ?_⟩
    exact hmin (ζ, ξ) (Finset.mem_offDiag.2 ⟨h1, h2, hne⟩)
  · refine ⟨1, one_pos, fun ζ h1 ξ h2 hne => absurd ?_ h⟩
    exact ⟨(ζ, ξ), Finset.mem_offDiag.2 ⟨h1, h2, hne⟩⟩

theorem degree_zeros {S : Subset ℝ} (h : S.Good) {F : Box ℝ → Itv ℝ × Itv ℝ} {f : ℝ × ℝ → ℝ × ℝ} {J : ℝ × ℝ → ℝ × ℝ →L[ℝ] ℝ × ℝ}
    (hf : ∀ z ∈ region rect S.items, HasFDerivAt f (J z) z) (hJ : ∀ z ∈ region rect S.items, f z = (0, 0) → jdet (J z) ≠ 0)
    (he : Encl F S (fun z => (f z).1) (fun z => (f z).2)) (hst : S.strictlyIncluded = true) {d : Int} (hd : S.degree F = some d) :
    ∃ Z : Finset (ℝ × ℝ), (∀ z, z ∈ Z ↔ z ∈ region rect S.items ∧ f z = (0, 0)) ∧ d = - ∑ ζ ∈ Z, sgnD (jdet (J ζ)) := by
  classical
  obtain ⟨root, hset⟩ := h.setup hst
  have hcont : ContinuousOn f (region rect S.items) := fun z hz => (hf z hz).continuousAt.continuousWithinAt
  have hcomp : IsCompact (region rect S.items) := region_compact
  -- the zeros are finitely many
  have hZc : IsCompact (region rect S.items ∩ f ⁻¹' {(0, 0)}) :=
    hcomp.of_isClosed_subset (hcont.preimage_isClosed_of_isClosed hcomp.isClosed isClosed_singleton) Set.inter_subset_left
  have hiso : ∀ ζ ∈ region rect S.items ∩ f ⁻¹' {(0, 0)}, ∃ r > 0, ∀ z, dist z ζ < r → f z = (0, 0) → z = ζ := by
    rintro ζ ⟨h1, h2⟩
    have h2 : f ζ = (0, 0) := h2
    obtain ⟨r, hr, k⟩ := isolated (approx_of_deriv (hf ζ h1) h2) (hJ ζ h1 h2)
    exact ⟨r, hr, fun z hz h0 => k z hz (by simp [h0]) (by simp [h0])⟩
  have hfin : (region rect S.items ∩ f ⁻¹' {(0, 0)}).Finite := by
    choose! r hr hri using hiso
    obtain ⟨t, ht, hcov⟩ := hZc.elim_nhds_subcover (fun ζ => Metric.ball ζ (r ζ)) fun ζ hζ => Metric.ball_mem_nhds ζ (hr ζ hζ)
    refine t.finite_toSet.subset fun z hz => ?_
    obtain ⟨ζ, hζt, hzζ⟩ := Set.mem_iUnion₂.1 (hcov hz)
    rw [hri ζ (ht ζ hζt) z hzζ hz.2]
    exact hζt
  set Z := hfin.toFinset with hZ
  have memZ : ∀ z, z ∈ Z ↔ z ∈ region rect S.items ∧ f z = (0, 0) := by
    intro z
    rw [hZ, Set.Finite.mem_toFinset]
    exact Iff.rfl
  refine ⟨Z, memZ, ?_⟩
  obtain ⟨δ, hδ, hgap⟩ := exists_gap Z
  -- a rectangle around each of them
  have hQ : ∀ ζ ∈ Z, ∃ Q : RR, Q.Inner ζ ∧ (∀ z, Q.Mem z → z ∈ region rect S.items) ∧ (∀ z, Q.Mem z → dist z ζ < δ / 2) ∧
      Loc (fun z => (f z).1) (fun z => (f z).2) Q (sgnD (jdet (J ζ))) := by
    intro ζ hζ
    obtain ⟨h1, h2⟩ := (memZ ζ).1 hζ
    obtain ⟨r, hr, hri⟩ := inside_region hset h1 (by
      intro A hA hAζ
      refine he.sep A hA ⟨ζ, h1, hAζ⟩ ?_
      have := he.mem A hA ζ h1 hAζ
      rw [h2] at this
      exact this)
    obtain ⟨p, q, hp0, hp, hq0, hq, hloc⟩ := exists_loc_of_approx (approx_of_deriv (hf ζ h1) h2) (hJ ζ h1 h2) (ρ := min r (δ / 2)) (lt_min hr (by linarith))
    have hdist : ∀ z, (⟨ζ.1 - p, ζ.1 + p, ζ.2 - q, ζ.2 + q⟩ : RR).Mem z → dist z ζ < min r (δ / 2) := by
      rintro z ⟨m1, m2, m3, m4⟩
      dsimp only at m1 m2 m3 m4
      rw [Prod.dist_eq, Real.dist_eq, Real.dist_eq]
      refine max_lt ?_ ?_
      · exact (abs_le.2 ⟨by linarith, by linarith⟩ : |z.1 - ζ.1| ≤ p).trans_lt hp
      · exact (abs_le.2 ⟨by linarith, by linarith⟩ : |z.2 - ζ.2| ≤ q).trans_lt hq
    refine ⟨_, ⟨?_, ?_, ?_, ?_⟩, fun z hz => hri z ((hdist z hz).trans_le (min_le_left _ _)), fun z hz => (hdist z hz).trans_le (min_le_right _ _), hloc⟩
      <;> dsimp only <;> linarith
  have : Nonempty RR := ⟨⟨0, 0, 0, 0⟩⟩
  choose! Q hQ1 hQ2 hQ3 hQ4 using hQ
  have ha : Around (fun z => (f z).1) (fun z => (f z).2) (region rect S.items) Z Q (fun ζ => sgnD (jdet (J ζ))) := by
    refine ⟨fun z hz e1 e2 => (memZ z).2 ⟨hz, Prod.ext e1 e2⟩, hQ1, hQ2, ?_, hQ4⟩
    intro ζ hζ ξ hξ hne z hz hz'
    have k1 := hQ3 ζ hζ z hz
    have k2 := hQ3 ξ hξ z hz'
    have k3 := hgap ζ hζ ξ hξ hne
    have := dist_triangle_left ζ ξ z
    linarith
  rw [degree_eq h he hst hset hd]
  exact zeros_sum hset (continuous_fst.comp_continuousOn hcont) (continuous_snd.comp_continuousOn hcont) (tauOf F) (fun C hC => tauOf_spec he hC) ha

/-- when the determinants have the same sign at the zeros, the degree gives their number -/
theorem degree_card {S : Subset ℝ} (h : S.Good) {F : Box ℝ → Itv ℝ × Itv ℝ} {f : ℝ × ℝ → ℝ × ℝ} {J : ℝ × ℝ → ℝ × ℝ →L[ℝ] ℝ × ℝ}
    (hf : ∀ z ∈ region rect S.items, HasFDerivAt f (J z) z)
    (hJ : (∀ z ∈ region rect S.items, f z = (0, 0) → 0 < jdet (J z)) ∨ ∀ z ∈ region rect S.items, f z = (0, 0) → jdet (J z) < 0)
    (he : Encl F S (fun z => (f z).1) (fun z => (f z).2)) (hst : S.strictlyIncluded = true) {d : Int} (hd : S.degree F = some d) :
    ∃ Z : Finset (ℝ × ℝ), (∀ z, z ∈ Z ↔ z ∈ region rect S.items ∧ f z = (0, 0)) ∧ Z.card = d.natAbs := by
  have hne : ∀ z ∈ region rect S.items, f z = (0, 0) → jdet (J z) ≠ 0 := by
    rcases hJ with hJ | hJ
    · exact fun z h1 h2 => (hJ z h1 h2).ne'
    · exact fun z h1 h2 => (hJ z h1 h2).ne
  obtain ⟨Z, hZ, hsum⟩ := degree_zeros h hf hne he hst hd
  refine ⟨Z, hZ, ?_⟩
  rcases hJ with hJ | hJ
  · rw [Finset.sum_congr rfl (f := fun ζ => sgnD (jdet (J ζ))) (g := fun _ => (1 : Int)) fun z hz => if_pos (hJ z ((hZ z).1 hz).1 ((hZ z).1 hz).2)] at hsum
    rw [hsum]; simp
  · rw [Finset.sum_congr rfl (f := fun ζ => sgnD (jdet (J ζ))) (g := fun _ => (-1 : Int)) fun z hz => if_neg (not_lt.2 (hJ z ((hZ z).1 hz).1 ((hZ z).1 hz).2).le)] at hsum
    rw [hsum]; simp

end Codac.Deg
