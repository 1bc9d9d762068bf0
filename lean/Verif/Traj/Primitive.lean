import Verif.Traj.History
import Mathlib.Analysis.SpecialFunctions.Integrals.Basic

/-! # The primitive of a sampled trajectory -/

set_option linter.unusedSectionVars false

namespace Codac

variable {K : Type*} [Field K] [LinearOrder K] [IsStrictOrderedRing K]

theorem setPt_append {l : List (K × K)} {t y : K} (h : ∀ p ∈ l, p.1 < t) : setPt t y l = l ++ [(t, y)] := by
  induction l with
  | nil => rfl
  | cons p l ih =>
    have hp := h p (by simp)
    rw [setPt, if_neg (not_lt.mpr hp.le), if_neg (ne_of_gt hp), ih fun q hq => h q (by simp [hq])]
    rfl

/-- setting the points of a list in order gives the trajectory of this list -/
theorem foldl_set (l : List (K × K)) (x : Traj K) (hx : TrajOk x) (hs : SortedPts (x.pts ++ l)) :
    TrajOk (l.foldl (fun y p => y.set p.2 p.1) x) ∧ (l.foldl (fun y p => y.set p.2 p.1) x).pts = x.pts ++ l := by
  induction l generalizing x with
  | nil => simpa using hx
  | cons p l ih =>
    have hlt : ∀ q ∈ x.pts, q.1 < p.1 := fun q hq => (List.pairwise_append.mp hs).2.2 q hq p (by simp)
    have hp : (x.set p.2 p.1).pts = x.pts ++ [p] := by rw [set_pts, setPt_append hlt]
    rw [List.foldl_cons]
    have := ih (x.set p.2 p.1) (hx.set p.2 p.1) (by rw [hp, List.append_assoc]; exact hs)
    rw [hp, List.append_assoc] at this
    exact this

theorem primitiveLoop_keys (o : Option (K × K × K)) (c : K) (l : List (K × K)) : (Traj.primitiveLoop o c l).map Prod.fst = l.map Prod.fst := by
  induction l generalizing o with
  | nil => rfl
  | cons p l ih =>
    rcases o with _ | ⟨u, v, val⟩ <;> simp only [Traj.primitiveLoop, List.map_cons, ih]

theorem primitive_ok {x : Traj K} (h : TrajOk x) (c : K) :
    TrajOk (x.primitive c) ∧ (x.primitive c).pts = Traj.primitiveLoop none c x.pts ∧ (x.primitive c).dom = x.dom := by
  have hs : SortedPts (Traj.primitiveLoop none c x.pts) := by
    rw [sortedPts_iff, primitiveLoop_keys, ← sortedPts_iff]; exact h.sorted
  obtain ⟨h1, h2⟩ := foldl_set (Traj.primitiveLoop none c x.pts) Traj.empty trajOk_empty hs
  have h2' : (x.primitive c).pts = Traj.primitiveLoop none c x.pts := h2
  refine ⟨h1, h2', ?_⟩
  have := (show TrajOk (x.primitive c) from h1).dom
  rw [h2', primitiveLoop_keys] at this
  exact this.unique h.dom

open MeasureTheory intervalIntegral in
theorem integral_lin (u v a b : ℝ) (hua : u < a) : ∫ s in u..a, (lin (u, v) (a, b) s) = (v + b) * (a - u) / 2 := by
  have hd : a - u ≠ 0 := sub_ne_zero.mpr (ne_of_gt hua)
  have : ∀ s, lin (u, v) (a, b) s = (v - u * ((b - v) / (a - u))) + s * ((b - v) / (a - u)) := by
    intro s; simp only [lin]; ring
  simp_rw [this]
  rw [intervalIntegral.integral_add (by simp) (Continuous.intervalIntegrable (by fun_prop) _ _), intervalIntegral.integral_const,
    intervalIntegral.integral_mul_const, integral_id]
  simp only [smul_eq_mul]
  field_simp
  ring

open MeasureTheory intervalIntegral in
theorem primitiveLoop_integral (c : ℝ) (l : List (ℝ × ℝ)) : ∀ (u v val : ℝ), SortedPts ((u, v) :: l) →
    ∀ r ∈ Traj.primitiveLoop (some (u, v, val)) c l,
      IntervalIntegrable (fun s => (ev s ((u, v) :: l)).getD 0) volume u r.1 ∧ r.2 = val + ∫ s in u..r.1, (ev s ((u, v) :: l)).getD 0 := by
  induction l with
  | nil => intro u v val _ r hr; simp [Traj.primitiveLoop] at hr
  | cons p l ih =>
    intro u v val hs r hr
    have hup : u < p.1 := hs.head p (by simp)
    have heq : Set.EqOn (fun s => lin (u, v) p s) (fun s => (ev s ((u, v) :: p :: l)).getD 0) (Set.uIcc u p.1) := by
      intro s hsm
      rw [Set.uIcc_of_le hup.le] at hsm
      dsimp only
      rcases eq_or_lt_of_le hsm.1 with h1 | h1
      · rw [ev, if_pos h1, ← h1]; simp [lin]
      · rcases eq_or_lt_of_le hsm.2 with h2 | h2
        · have : ev s (p :: l) = some p.2 := by cases l <;> simp [ev, h2]
          rw [ev_cons_of_le h1 h2.ge, this, h2]
          have hd : p.1 - u ≠ 0 := sub_ne_zero.mpr (ne_of_gt hup)
          simp only [lin, Option.getD_some]
          field_simp
          ring
        · rw [ev, if_neg (ne_of_lt h1), if_pos ⟨h1, h2⟩]; rfl
    have hcont : Continuous fun s => lin (u, v) p s := by unfold lin; fun_prop
    have hint : IntervalIntegrable (fun s => (ev s ((u, v) :: p :: l)).getD 0) volume u p.1 :=
      (hcont.intervalIntegrable u p.1).congr (fun s hs' => heq (Set.uIoc_subset_uIcc hs'))
    have hval : ∫ s in u..p.1, (ev s ((u, v) :: p :: l)).getD 0 = (v + p.2) * (p.1 - u) / 2 := by
      rw [← intervalIntegral.integral_congr heq]
      exact integral_lin u v p.1 p.2 hup
    rw [Traj.primitiveLoop] at hr
    rcases List.mem_cons.mp hr with rfl | hr
    · exact ⟨hint, by rw [hval]⟩
    · obtain ⟨h1, h2⟩ := ih p.1 p.2 _ hs.tail r hr
      have hpr : p.1 < r.1 := by
        have hk : r.1 ∈ l.map Prod.fst := by
          rw [← primitiveLoop_keys (some (p.1, p.2, val + (v + p.2) * (p.1 - u) / 2)) c l]
          exact List.mem_map_of_mem hr
        obtain ⟨q, hq, hqr⟩ := List.mem_map.mp hk
        rw [← hqr]
        exact hs.tail.head q hq
      have heq2 : Set.EqOn (fun s => (ev s ((p.1, p.2) :: l)).getD 0) (fun s => (ev s ((u, v) :: p :: l)).getD 0) (Set.uIcc p.1 r.1) := by
        intro s hsm
        rw [Set.uIcc_of_le hpr.le] at hsm
        dsimp only
        rw [ev_cons_of_le (lt_of_lt_of_le hup hsm.1) hsm.1]
      have h1' : IntervalIntegrable (fun s => (ev s ((u, v) :: p :: l)).getD 0) volume p.1 r.1 := h1.congr (fun s hs' => heq2 (Set.uIoc_subset_uIcc hs'))
      refine ⟨hint.trans h1', ?_⟩
      rw [← intervalIntegral.integral_add_adjacent_intervals hint h1', hval, h2, intervalIntegral.integral_congr heq2]
      ring

/-- the primitive at the sampled instants is the integral of the interpolated trajectory -/
theorem primitive_integral {x : Traj ℝ} (h : TrajOk x) (c : ℝ) {p0 : ℝ × ℝ} (h0 : x.pts.head? = some p0) {p : ℝ × ℝ} (hp : p ∈ x.pts) :
    (x.primitive c).evalAt p.1 = some (c + ∫ s in p0.1..p.1, (x.evalAt s).getD 0) := by
  obtain ⟨hok, hpts, _⟩ := primitive_ok h c
  rw [evalAt_iff hok, hpts]
  left
  simp only [evalAt_ev h]
  cases hl : x.pts with
  | nil => rw [hl] at hp; simp at hp
  | cons q l =>
    rw [hl] at h0 hp
    simp only [List.head?_cons, Option.some.injEq] at h0
    subst h0
    rw [Traj.primitiveLoop]
    rcases List.mem_cons.mp hp with rfl | hp
    · simp
    · have hk : p.1 ∈ (Traj.primitiveLoop (some (q.1, q.2, c)) c l).map Prod.fst := by
        rw [primitiveLoop_keys]; exact List.mem_map_of_mem hp
      obtain ⟨r, hr, hrp⟩ := List.mem_map.mp hk
      have hs := h.sorted
      rw [hl] at hs
      obtain ⟨_, h2⟩ := primitiveLoop_integral c l q.1 q.2 c hs r hr
      rw [hrp] at h2
      refine List.mem_cons_of_mem _ ?_
      rw [← h2, ← hrp]
      exact hr

end Codac
