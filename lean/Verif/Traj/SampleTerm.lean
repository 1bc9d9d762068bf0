import Verif.Traj.Arith
import Mathlib.Algebra.Order.Archimedean.Basic

/-! # Sampling a trajectory ends -/

set_option linter.unusedSectionVars false

namespace Codac

variable {K : Type*} [Field K] [LinearOrder K] [IsStrictOrderedRing K]

theorem sampleTimes_mono {ub dt : K} {n m : Nat} (hnm : n ≤ m) {t : K} {ts : List K} (h : Traj.sampleTimes ub dt n t = some ts) : Traj.sampleTimes ub dt m t = some ts := by
  induction n generalizing t ts m with
  | zero => simp [Traj.sampleTimes] at h
  | succ n ih =>
    cases m with
    | zero => omega
    | succ m =>
      rw [Traj.sampleTimes] at h ⊢
      split
      · rename_i hc
        rw [if_pos hc, Option.map_eq_some_iff] at h
        obtain ⟨ts', h1, rfl⟩ := h
        rw [ih (by omega) h1]; rfl
      · rename_i hc
        rw [if_neg hc] at h; exact h

theorem sampleTimes_spec {ub dt : K} (hdt : 0 < dt) {n : Nat} {t : K} {ts : List K} (h : Traj.sampleTimes ub dt n t = some ts) :
    ∀ u, u ∈ ts ↔ u < ub ∧ ∃ k : Nat, u = t + k * dt := by
  induction n generalizing t ts with
  | zero => simp [Traj.sampleTimes] at h
  | succ n ih =>
    rw [Traj.sampleTimes] at h
    split at h
    · rename_i hc
      rw [Option.map_eq_some_iff] at h
      obtain ⟨ts', h1, rfl⟩ := h
      intro u
      rw [List.mem_cons, ih h1]
      constructor
      · rintro (rfl | ⟨h2, k, rfl⟩)
        · exact ⟨hc, 0, by simp⟩
        · exact ⟨h2, k + 1, by push_cast; ring⟩
      · rintro ⟨h2, k, rfl⟩
        cases k with
        | zero => left; simp
        | succ k => right; exact ⟨h2, k, by push_cast; ring⟩
    · rename_i hc
      simp only [Option.some.injEq] at h
      subst h
      intro u
      simp only [List.not_mem_nil, false_iff, not_and, not_exists]
      rintro h2 k rfl
      have : (0 : K) ≤ k * dt := mul_nonneg (Nat.cast_nonneg k) hdt.le
      exact hc (by linarith)

theorem sampleTimes_total [Archimedean K] {ub dt : K} (hdt : 0 < dt) (t : K) : ∃ n ts, Traj.sampleTimes ub dt n t = some ts := by
  obtain ⟨k, hk⟩ := exists_nat_gt ((ub - t) / dt)
  rw [div_lt_iff₀ hdt] at hk
  induction k generalizing t with
  | zero => exact ⟨1, [], by rw [Traj.sampleTimes, if_neg]; simp at hk; linarith⟩
  | succ k ih =>
    obtain ⟨n, ts, h⟩ := ih (t + dt) (by push_cast at hk; linarith)
    by_cases hc : t < ub
    · exact ⟨n + 1, t :: ts, by rw [Traj.sampleTimes, if_pos hc, h]; rfl⟩
    · exact ⟨1, [], by rw [Traj.sampleTimes, if_neg hc]⟩

/-- sampling ends, with the former instants, the multiples of the step and both bounds -/
theorem sample_total [Archimedean K] {x : Traj K} (h : TrajOk x) {lb ub dt : K} (hd : x.dom = Itv.icc lb ub) (hlu : lb ≤ ub) (hdt : 0 < dt) :
    ∃ x' n, (∀ fuel ≥ n, x.sample fuel dt = some x') ∧
      ∀ k, k ∈ x'.pts.map Prod.fst ↔ k ∈ x.pts.map Prod.fst ∨ k = ub ∨ (k < ub ∧ ∃ j : Nat, k = lb + j * dt) := by
  obtain ⟨n, ts, hts⟩ := sampleTimes_total (ub := ub) hdt lb
  have hspec := sampleTimes_spec hdt hts
  have hdom : ∀ u, u ∈ x.dom ↔ lb ≤ u ∧ u ≤ ub := fun u => by rw [hd, Itv.mem_icc]
  have hin : ∀ t ∈ ts, t ∈ x.dom := by
    intro t ht
    obtain ⟨h1, k, rfl⟩ := (hspec t).mp ht
    rw [hdom]
    have : (0 : K) ≤ k * dt := mul_nonneg (Nat.cast_nonneg k) hdt.le
    exact ⟨by linarith, h1.le⟩
  obtain ⟨m, hm⟩ := sampleLoop_total h ts x.pts hin
  obtain ⟨h1, _, h3, h4⟩ := sampleLoop_spec h (.refl h.sorted) hm
  obtain ⟨v, hv⟩ := evalAt_some h ((hdom ub).mpr ⟨hlu, le_rfl⟩)
  refine ⟨{ x with pts := setPt ub v m }, n, fun fuel hf => ?_, fun k => ?_⟩
  · rw [Itv.icc_eq_mk hlu] at hd
    unfold Traj.sample
    rw [hd]
    dsimp only
    rw [if_pos hdt, sampleTimes_mono hf hts, Option.bind_some, hm, Option.bind_some, hv]
    rfl
  · constructor
    · intro hk
      obtain ⟨p, hp, rfl⟩ := List.mem_map.mp hk
      rcases (mem_setPt h1.sorted).mp hp with rfl | ⟨hp, _⟩
      · exact .inr (.inl rfl)
      · rcases h4 p hp with h5 | h5
        · exact .inl (List.mem_map_of_mem h5)
        · exact .inr (.inr ((hspec _).mp h5))
    · have hkey : ∀ u, (∃ p ∈ m, p.1 = u) → u ∈ (setPt ub v m).map Prod.fst := by
        intro u hu
        rw [evalAt_ev h] at hv
        obtain ⟨p, hp, rfl⟩ := h1.key hv hu
        exact List.mem_map_of_mem hp
      rintro (hk | rfl | hk)
      · obtain ⟨p, hp, rfl⟩ := List.mem_map.mp hk
        exact hkey _ ⟨p, h1.keeps p hp, rfl⟩
      · exact List.mem_map.mpr ⟨(k, v), (mem_setPt h1.sorted).mpr (.inl rfl), rfl⟩
      · exact hkey _ (h3 k ((hspec k).mpr hk))

end Codac
