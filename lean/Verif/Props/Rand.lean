import Verif.Traj.Rand
import Mathlib.Data.Rat.Floor

/-!
# C134 — random trajectories

Specification: `IsHull` (smallest interval with the values), `Interp` (value of a point or interpolation between neighbouring points).
-/

namespace Codac.Props
open Codac.Rand

section order
variable {K : Type*} [LinearOrder K]

/-- C134: a value drawn lies in the bounds, whatever the roundings -/
theorem C134_in_bounds {lo hi : K} (h : lo ≤ hi) (raw : K) : randInBounds lo hi raw ∈ Itv.icc lo hi :=
  Itv.mem_icc.mpr ⟨le_max_left _ _, max_le h (min_le_left _ _)⟩

/-- C134: the clipping has no effect on a number of the bounds -/
theorem C134_unclipped {lo hi raw : K} (h1 : lo ≤ raw) (h2 : raw ≤ hi) : randInBounds lo hi raw = raw := by
  unfold randInBounds
  rw [min_eq_right h2, max_eq_right h1]

end order

variable {K : Type*} [Field K] [LinearOrder K] [IsStrictOrderedRing K]

theorem randLoop_bounds {add : K → K → K} {ub step lo hi : K} (hb : lo ≤ hi) {raw : Nat → K} : ∀ {fuel i : Nat} {t : K} {m : List (K × K)} {c : Itv K}
    {r : List (K × K) × Itv K}, randLoop add ub step lo hi raw fuel i t m c = some r → SortedPts m → (∀ p ∈ m, p.2 ∈ c) → c ≤ Itv.icc lo hi →
    SortedPts r.1 ∧ (∀ p ∈ r.1, p.2 ∈ r.2) ∧ r.2 ≤ Itv.icc lo hi := by
  intro fuel
  induction fuel with
  | zero => intro i t m c r h; cases h
  | succ n ih =>
    intro i t m c r h hs hm hc
    rw [randLoop] at h
    split at h
    · refine ih h (hs.setPt _ _) ?_ (sup_le hc (point_le_iff.mpr (C134_in_bounds hb _)))
      intro p hp
      rcases (mem_setPt hs).mp hp with rfl | hp
      · exact Itv.mem_of_le le_sup_right (Itv.mem_point.mpr rfl)
      · exact Itv.mem_of_le le_sup_left (hm p hp.1)
    · simp only [Option.some.injEq] at h
      subst h
      exact ⟨hs, hm, hc⟩

/-- C134: whatever the roundings, the codomain lies in the bounds, all values lie in the codomain, the time domain is the one given -/
theorem C134_codomain {add : K → K → K} {fuel : Nat} {lb ub step lo hi : K} (hb : lo ≤ hi) {raw : Nat → K} {x : Traj K}
    (h : randTraj add fuel lb ub step lo hi raw = some x) :
    x.dom = Itv.icc lb ub ∧ x.cod ≤ Itv.icc lo hi ∧ SortedPts x.pts ∧ ∀ p ∈ x.pts, p.2 ∈ x.cod := by
  unfold randTraj at h
  rw [Option.map_eq_some_iff] at h
  obtain ⟨r, hr, rfl⟩ := h
  obtain ⟨h1, h2, h3⟩ := randLoop_bounds hb hr List.Pairwise.nil (by simp) bot_le
  exact ⟨rfl, h3, h1, h2⟩

/-- the state of the loop at the turn `i`, with exact additions -/
structure RandInv (lb ub step lo hi : K) (raw : Nat → K) (i : Nat) (m : List (K × K)) (c : Itv K) : Prop where
  sorted : SortedPts m
  hull : IsHull c (m.map Prod.snd)
  pts : ∀ p : K × K, p ∈ m ↔ ∃ k : Nat, k < i ∧ lb + k * step < ub + step ∧ p = (min (lb + k * step) ub, randInBounds lo hi (raw k))

theorem randLoop_inv {lb ub step lo hi : K} (hs : 0 < step) {raw : Nat → K} : ∀ {fuel i : Nat} {m : List (K × K)} {c : Itv K}
    {r : List (K × K) × Itv K}, randLoop (· + ·) ub step lo hi raw fuel i (lb + i * step) m c = some r → RandInv lb ub step lo hi raw i m c →
    ∃ j : Nat, ub + step ≤ lb + j * step ∧ RandInv lb ub step lo hi raw j r.1 r.2 := by
  intro fuel
  induction fuel with
  | zero => intro i m c r h; cases h
  | succ n ih =>
    intro i m c r h hv
    rw [randLoop] at h
    split at h
    · rename_i hlt
      have e : lb + (i : K) * step + step = lb + ((i + 1 : Nat) : K) * step := by push_cast; ring
      simp only [e] at h
      refine ih h ?_
      -- the points so far are before the new one
      have hbefore : ∀ p ∈ m, p.1 < min (lb + i * step) ub := by
        intro p hp
        obtain ⟨k, hk, _, rfl⟩ := (hv.pts p).mp hp
        have hki : (k : K) + 1 ≤ i := by exact_mod_cast hk
        have h1 : ((k : K) + 1) * step ≤ i * step := mul_le_mul_of_nonneg_right hki hs.le
        rw [add_mul, one_mul] at h1
        have h2 : lb + (k : K) * step < ub := by linarith
        simp only
        rw [min_eq_left h2.le]
        exact lt_min (by linarith) h2
      have hmem : ∀ p : K × K, p ∈ setPt (min (lb + i * step) ub) (randInBounds lo hi (raw i)) m ↔ p = (min (lb + i * step) ub, randInBounds lo hi (raw i)) ∨ p ∈ m := by
        intro p
        rw [mem_setPt hv.sorted]
        constructor
        · rintro (h | h)
          · exact .inl h
          · exact .inr h.1
        · rintro (h | h)
          · exact .inl h
          · exact .inr ⟨h, (hbefore p h).ne⟩
      refine ⟨hv.sorted.setPt _ _, ?_, ?_⟩
      · constructor
        · intro y hy
          obtain ⟨p, hp, rfl⟩ := List.mem_map.mp hy
          rcases (hmem p).mp hp with rfl | hp
          · exact Itv.mem_of_le le_sup_right (Itv.mem_point.mpr rfl)
          · exact Itv.mem_of_le le_sup_left (hv.hull.1 _ (List.mem_map_of_mem hp))
        · intro Y hY
          refine sup_le (hv.hull.2 Y ?_) (point_le_iff.mpr (hY _ (List.mem_map.mpr ⟨_, (hmem _).mpr (.inl rfl), rfl⟩)))
          intro y hy
          obtain ⟨p, hp, rfl⟩ := List.mem_map.mp hy
          exact hY _ (List.mem_map.mpr ⟨p, (hmem _).mpr (.inr hp), rfl⟩)
      · intro p
        rw [hmem, hv.pts]
        constructor
        · rintro (rfl | ⟨k, hk, h1, h2⟩)
          · exact ⟨i, by omega, hlt, rfl⟩
          · exact ⟨k, by omega, h1, h2⟩
        · rintro ⟨k, hk, h1, h2⟩
          rcases Nat.lt_succ_iff_lt_or_eq.mp hk with hk | rfl
          · exact .inr ⟨k, hk, h1, h2⟩
          · exact .inl h2
    · rename_i hlt
      simp only [Option.some.injEq] at h
      subst h
      exact ⟨i, not_lt.mp hlt, hv⟩

/-- C134: with exact additions the points are the values drawn, in their order, at the times `lb + k step` before `ub` and, last, at `ub` -/
theorem C134_points {fuel : Nat} {lb ub step lo hi : K} (hs : 0 < step) {raw : Nat → K} {x : Traj K}
    (h : randTraj (· + ·) fuel lb ub step lo hi raw = some x) (p : K × K) :
    p ∈ x.pts ↔ ∃ k : Nat, p.2 = randInBounds lo hi (raw k) ∧
      (p.1 = lb + k * step ∧ p.1 < ub ∨ p.1 = ub ∧ ub ≤ lb + k * step ∧ lb + k * step < ub + step) := by
  unfold randTraj at h
  rw [Option.map_eq_some_iff] at h
  obtain ⟨r, hr, rfl⟩ := h
  obtain ⟨j, hj, hinv⟩ := randLoop_inv (lb := lb) (i := 0) hs (by simpa using hr) ⟨List.Pairwise.nil, ⟨by simp, fun _ _ => bot_le⟩, by simp⟩
  simp only
  rw [hinv.pts]
  constructor
  · rintro ⟨k, _, h1, rfl⟩
    refine ⟨k, rfl, ?_⟩
    rcases lt_or_ge (lb + (k : K) * step) ub with h2 | h2
    · exact .inl ⟨min_eq_left h2.le, by simpa using h2⟩
    · exact .inr ⟨min_eq_right h2, h2, h1⟩
  · rintro ⟨k, h1, h2⟩
    have hlt : lb + (k : K) * step < ub + step := by
      rcases h2 with ⟨h2, h3⟩ | h2
      · rw [h2] at h3; linarith
      · exact h2.2.2
    refine ⟨k, ?_, hlt, ?_⟩
    · have : (k : K) * step < j * step := by linarith
      exact_mod_cast lt_of_mul_lt_mul_right this hs.le
    · refine Prod.ext ?_ h1
      rcases h2 with ⟨h2, h3⟩ | h2
      · rw [h2] at h3 ⊢; exact (min_eq_left h3.le).symm
      · rw [h2.1]; exact (min_eq_right h2.2.1).symm

/-- C134: with exact additions, a valid trajectory: points in order, the time domain is the hull of their times, the codomain the hull of their values; it is
defined exactly on the time domain and all its values lie in the bounds -/
theorem C134_valid [Archimedean K] {fuel : Nat} {lb ub step lo hi : K} (hs : 0 < step) (ht : lb < ub) (hb : lo ≤ hi) {raw : Nat → K} {x : Traj K}
    (h : randTraj (· + ·) fuel lb ub step lo hi raw = some x) :
    TrajOk x ∧ (∀ t, lb ≤ t ∧ t ≤ ub ↔ ∃ v, x.evalAt t = some v) ∧ ∀ t v, x.evalAt t = some v → v ∈ Itv.icc lo hi := by
  obtain ⟨hdom, hcod, hsort, _⟩ := C134_codomain hb h
  have hp := C134_points hs h
  have hhull : IsHull x.cod (x.pts.map Prod.snd) := by
    unfold randTraj at h
    rw [Option.map_eq_some_iff] at h
    obtain ⟨r, hr, rfl⟩ := h
    obtain ⟨j, _, hinv⟩ := randLoop_inv (lb := lb) (i := 0) hs (by simpa using hr) ⟨List.Pairwise.nil, ⟨by simp, fun _ _ => bot_le⟩, by simp⟩
    exact hinv.hull
  have hub : ∃ p ∈ x.pts, p.1 = ub := by
    -- the first multiple of the step after ub
    have hex : ∃ k : Nat, ub ≤ lb + k * step := by
      obtain ⟨k, hk⟩ := Archimedean.arch (ub - lb) hs
      rw [nsmul_eq_mul] at hk
      exact ⟨k, by linarith⟩
    classical
    have h1 := Nat.find_spec hex
    have h2 : lb + (Nat.find hex : K) * step < ub + step := by
      rcases hk : Nat.find hex with _ | k
      · rw [hk] at h1; simp at h1; exact absurd ht (not_lt.mpr h1)
      · have := Nat.find_min hex (m := k) (by omega)
        push_cast
        rw [add_mul, one_mul]
        linarith [not_le.mp this]
    exact ⟨(ub, randInBounds lo hi (raw (Nat.find hex))), (hp _).mpr ⟨Nat.find hex, rfl, .inr ⟨rfl, h1, h2⟩⟩, rfl⟩
  have hok : TrajOk x := by
    refine ⟨hsort, ?_, hhull⟩
    rw [hdom]
    refine isHull_keys ht.le ⟨(lb, randInBounds lo hi (raw 0)), (hp _).mpr ⟨0, rfl, .inl ⟨by simp, ht⟩⟩, rfl⟩ hub ?_
    intro p hpm
    obtain ⟨k, _, ⟨h1, h2⟩ | ⟨h1, _, _⟩⟩ := (hp p).mp hpm
    · refine ⟨?_, h2.le⟩
      rw [h1]
      have : 0 ≤ (k : K) * step := mul_nonneg (Nat.cast_nonneg k) hs.le
      linarith
    · rw [h1]; exact ⟨ht.le, le_rfl⟩
  refine ⟨hok, fun t => ?_, fun t v hv => Itv.mem_of_le hcod (evalAt_mem_cod hok hv)⟩
  have hmem : t ∈ x.dom ↔ lb ≤ t ∧ t ≤ ub := by rw [hdom, Itv.mem_icc]
  rw [← hmem]
  refine ⟨evalAt_some hok, fun ⟨v, hv⟩ => ?_⟩
  by_contra hc
  rw [evalAt_none hc] at hv
  cases hv

/-- C134: with exact additions the construction ends -/
theorem C134_ends [Archimedean K] (lb ub : K) {step : K} (hs : 0 < step) (lo hi : K) (raw : Nat → K) :
    ∃ fuel x, randTraj (· + ·) fuel lb ub step lo hi raw = some x := by
  have key : ∀ (n : Nat) (i : Nat) (t : K) (m : List (K × K)) (c : Itv K), ub + step - t ≤ n • step →
      ∃ fuel r, randLoop (· + ·) ub step lo hi raw fuel i t m c = some r := by
    intro n
    induction n with
    | zero =>
      intro i t m c h
      rw [zero_nsmul] at h
      exact ⟨1, (m, c), by rw [randLoop, if_neg (by linarith)]⟩
    | succ n ih =>
      intro i t m c h
      by_cases hlt : t < ub + step
      · obtain ⟨f, r, hr⟩ := ih (i + 1) (t + step) (setPt (min t ub) (randInBounds lo hi (raw i)) m) (c ⊔ Itv.point (randInBounds lo hi (raw i)))
          (by rw [succ_nsmul] at h; linarith)
        exact ⟨f + 1, r, by rw [randLoop, if_pos hlt]; exact hr⟩
      · exact ⟨1, (m, c), by rw [randLoop, if_neg hlt]⟩
  obtain ⟨n, hn⟩ := Archimedean.arch (ub + step - lb) hs
  obtain ⟨f, r, hr⟩ := key n 0 lb [] ⊥ hn
  exact ⟨f, _, by unfold randTraj; rw [hr]; rfl⟩

/-! ## what does not hold -/

/-- an addition which gives, on the numbers used below, the results of the one of `double`s: `2^53 + 1` is not a `double` and is rounded to `2^53` -/
def addAbsorb (x y : ℚ) : ℚ := if x + y = 2 ^ 53 + 1 then 2 ^ 53 else x + y

/-- C134: with rounded additions the last point may be missing: for the time domain `[0,1]` and the step `2^53`, the only point is at the time 0, and the
evaluation at the time 1, in the time domain, has no value (an iterator out of the map is read) -/
theorem C134_last_point_fails : ∃ x, randTraj addAbsorb 5 0 1 (2 ^ 53) 0 1 (fun _ => 1 / 2) = some x ∧ x.pts = [(0, 1 / 2)] ∧ (1 : ℚ) ∈ x.dom ∧ x.evalAt 1 = none :=
  ⟨⟨[(0, 1 / 2)], Itv.icc 0 1, Itv.point (1 / 2)⟩, by decide +kernel, rfl, by decide +kernel, by decide +kernel⟩

omit [Field K] [IsStrictOrderedRing K] in
/-- C134: when the addition of the step to the first time is absorbed, the construction never ends -/
theorem C134_endless_fails {add : K → K → K} {lb ub step : K} (h : add lb step = lb) (hlt : lb < add ub step) (lo hi : K) (raw : Nat → K) (fuel : Nat) :
    randTraj add fuel lb ub step lo hi raw = none := by
  have key : ∀ (fuel i : Nat) (m : List (K × K)) (c : Itv K), randLoop add ub step lo hi raw fuel i lb m c = none := by
    intro fuel
    induction fuel with
    | zero => intros; rfl
    | succ n ih => intro i m c; rw [randLoop, if_pos hlt]; simp only [h]; exact ih _ _ _
  unfold randTraj
  rw [key]; rfl

/-! ## concrete cases -/

example : randTraj (· + ·) 9 (0 : ℚ) 2 (3 / 4) (-1) 1 (fun k => k - 1) =
    some ⟨[(0, -1), (3 / 4, 0), (3 / 2, 1), (2, 1)], Itv.icc 0 2, Itv.icc (-1) 1⟩ := by decide +kernel

example : randTraj (· + ·) 9 (0 : ℚ) 2 1 (-1) 1 (fun k => (k - 1) / 2) =
    some ⟨[(0, -1 / 2), (1, 0), (2, 1 / 2)], Itv.icc 0 2, Itv.icc (-1 / 2) (1 / 2)⟩ := by decide +kernel

example : addAbsorb (2 ^ 53) 1 = 2 ^ 53 ∧ (2 : ℚ) ^ 53 < addAbsorb (2 ^ 53 + 4) 1 := by decide +kernel

end Codac.Props
