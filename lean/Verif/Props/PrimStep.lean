import Verif.Traj.PrimStep
import Mathlib.MeasureTheory.Integral.IntervalIntegral.Basic
import Mathlib.Algebra.Order.Archimedean.Basic
import Mathlib.Tactic.Linarith
import Mathlib.Tactic.Ring

/-!
# C160: primitive of a trajectory with a time step
-/

set_option linter.unusedSectionVars false

namespace Codac.Props
open Codac

variable {K : Type*} [Field K] [LinearOrder K] [IsStrictOrderedRing K]

/-- specification: the samples go forward by steps of at most `h`, and each value is the former one plus the area of the trapezoid -/
def TrapList (f : K → K) (h : K) : List (K × K) → Prop
  | p :: q :: l => (p.1 < q.1 ∧ q.1 - p.1 ≤ h ∧ q.2 = p.2 + (f p.1 + f q.1) * (q.1 - p.1) / 2) ∧ TrapList f h (q :: l)
  | _ => True

theorem setPt_last {t y : K} : ∀ {l : List (K × K)}, (∀ p ∈ l, p.1 < t) → setPt t y l = l ++ [(t, y)]
  | [], _ => rfl
  | p :: l, h => by
    have hp := h p (by simp)
    rw [setPt, if_neg (not_lt.mpr hp.le), if_neg hp.ne', setPt_last fun q hq => h q (by simp [hq])]
    rfl

theorem trap_snoc {f : K → K} {h : K} {p q : K × K} (hpq : p.1 < q.1 ∧ q.1 - p.1 ≤ h ∧ q.2 = p.2 + (f p.1 + f q.1) * (q.1 - p.1) / 2) :
    ∀ {l : List (K × K)}, TrapList f h (l ++ [p]) → TrapList f h (l ++ [p] ++ [q])
  | [], _ => ⟨hpq, trivial⟩
  | [_], H => ⟨H.1, hpq, trivial⟩
  | _ :: s :: l, H => ⟨H.1, trap_snoc hpq (l := s :: l) H.2⟩

/-- what the loop keeps: the samples are at `a`, `a + dt`, ..., before `b` -/
structure PrimInv (f : K → K) (a b c dt : K) (t prev val : K) (x : List (K × K)) : Prop where
  time : t = a + x.length * dt
  keys : x.map Prod.fst = (List.range x.length).map fun (i : ℕ) => a + (i : K) * dt
  trap : TrapList f dt x
  dom : ∀ p ∈ x, a ≤ p.1 ∧ p.1 < b ∧ p.1 < t
  last : (x = [] ∧ prev = a ∧ val = c) ∨ (∃ l, x = l ++ [(prev, val)]) ∧ x.head? = some (a, c) ∧ t = prev + dt

theorem primInv_step {f : K → K} {a b c dt : K} (hdt : 0 < dt) {t prev val : K} {x : List (K × K)} (h : PrimInv f a b c dt t prev val x) (htb : t < b) :
    PrimInv f a b c dt (t + dt) t (if t ≠ a then val + (f (t - dt) + f t) * dt / 2 else val) (setPt t (if t ≠ a then val + (f (t - dt) + f t) * dt / 2 else val) x) := by
  generalize hv : (if t ≠ a then val + (f (t - dt) + f t) * dt / 2 else val) = v
  rw [setPt_last fun p hp => (h.dom p hp).2.2]
  have hat : a ≤ t := by
    rw [h.time]
    have : (0 : K) ≤ x.length * dt := mul_nonneg (Nat.cast_nonneg _) hdt.le
    linarith
  refine ⟨?_, ?_, ?_, ?_, ?_⟩
  · rw [List.length_append, h.time]
    push_cast
    simp only [List.length_cons, List.length_nil]
    push_cast
    ring
  · rw [List.map_append, h.keys, List.length_append]
    simp only [List.length_cons, List.length_nil, List.range_succ, List.map_append, List.map_cons, List.map_nil, zero_add]
    rw [← h.time]
  · rcases h.last with ⟨rfl, -, -⟩ | ⟨⟨l, rfl⟩, -, ht⟩
    · trivial
    · refine trap_snoc ⟨?_, ?_, ?_⟩ h.trap
      · change prev < t
        linarith
      · change t - prev ≤ dt
        linarith
      · have hne : t ≠ a := by
          have := (h.dom (prev, val) (by simp)).1
          change a ≤ prev at this
          intro e
          linarith
        rw [if_pos hne] at hv
        change v = val + (f prev + f t) * (t - prev) / 2
        rw [← hv, ht]
        ring_nf
  · intro p hp
    rcases List.mem_append.mp hp with hp | hp
    · obtain ⟨h1, h2, h3⟩ := h.dom p hp
      exact ⟨h1, h2, by linarith⟩
    · rw [List.mem_singleton.mp hp]
      exact ⟨hat, htb, by change t < t + dt; linarith⟩
  · right
    refine ⟨⟨x, rfl⟩, ?_, rfl⟩
    rcases h.last with ⟨rfl, -, e⟩ | ⟨⟨l, rfl⟩, hh, -⟩
    · have : t = a := by rw [h.time]; simp
      rw [if_neg (by simp [this])] at hv
      rw [← hv, e, this]
      rfl
    · rw [List.head?_append, hh]
      rfl

theorem primLoop_end {f : K → K} {a b c dt : K} (hdt : 0 < dt) : ∀ (n : Nat) {t prev val : K} {x : List (K × K)}, PrimInv f a b c dt t prev val x → b ≤ t + n * dt →
    ∃ y p v s, Traj.primStepLoop f a b dt (n + 1) t prev val x = some (y, p, v) ∧ PrimInv f a b c dt s p v y ∧ b ≤ s
  | 0, t, prev, val, x, h, hb => by
    have : ¬ t < b := not_lt.mpr (by simpa using hb)
    exact ⟨x, prev, val, t, by rw [Traj.primStepLoop, if_neg this], h, not_lt.mp this⟩
  | n + 1, t, prev, val, x, h, hb => by
    by_cases htb : t < b
    · obtain ⟨y, p, v, s, e, k⟩ := primLoop_end hdt n (primInv_step hdt h htb) (by push_cast at hb; linarith)
      exact ⟨y, p, v, s, by rw [Traj.primStepLoop, if_pos htb]; exact e, k⟩
    · exact ⟨x, prev, val, t, by rw [Traj.primStepLoop, if_neg htb], h, not_lt.mp htb⟩

/-- **C160**: the computation ends. The samples are at `a`, `a + dt`, `a + 2 dt`, ... and `b`, all in `[a,b]`; the first value is `c`, and each value is the former one plus the area of the trapezoid between the two instants -/
theorem C160_samples [Archimedean K] (f : K → K) {a b dt : K} (hab : a ≤ b) (hdt : 0 < dt) (c : K) :
    ∃ l, (∃ N, ∀ n, N ≤ n → Traj.primStep n f a b c dt = some l) ∧ TrapList f dt l ∧ l.head? = some (a, c) ∧ (∀ p ∈ l, a ≤ p.1 ∧ p.1 ≤ b) ∧
      ∃ k, l.map Prod.fst = ((List.range k).map fun (i : ℕ) => a + (i : K) * dt) ++ [b] := by
  have h0 : PrimInv f a b c dt a a c [] := ⟨by simp, rfl, trivial, by simp, .inl ⟨rfl, rfl, rfl⟩⟩
  have key : ∀ n : Nat, b ≤ a + n * dt → ∃ l, Traj.primStep (n + 1) f a b c dt = some l ∧ TrapList f dt l ∧ l.head? = some (a, c) ∧ (∀ p ∈ l, a ≤ p.1 ∧ p.1 ≤ b) ∧
      ∃ k, l.map Prod.fst = ((List.range k).map fun (i : ℕ) => a + (i : K) * dt) ++ [b] := by
    intro n hn
    obtain ⟨y, p, v, s, e, h, hs⟩ := primLoop_end hdt n h0 hn
    refine ⟨setPt b (v + (f p + f b) * (b - p) / 2) y, by unfold Traj.primStep; rw [e]; rfl, ?_⟩
    rw [setPt_last fun q hq => (h.dom q hq).2.1]
    refine ⟨?_, ?_, ?_, y.length, by rw [List.map_append, h.keys]; rfl⟩
    · rcases h.last with ⟨rfl, -, -⟩ | ⟨⟨l, rfl⟩, -, ht⟩
      · trivial
      · exact trap_snoc ⟨(h.dom (p, v) (by simp)).2.1, by change b - p ≤ dt; linarith, rfl⟩ h.trap
    · rcases h.last with ⟨rfl, hp, hv⟩ | ⟨-, hh, -⟩
      · have hsa : s = a := by rw [h.time]; simp
        have : b = a := le_antisymm (hsa ▸ hs) hab
        rw [hp, hv, this]
        simp
      · rw [List.head?_append, hh]
        rfl
    · intro q hq
      rcases List.mem_append.mp hq with hq | hq
      · exact ⟨(h.dom q hq).1, (h.dom q hq).2.1.le⟩
      · rw [List.mem_singleton.mp hq]
        exact ⟨hab, le_refl b⟩
  have mono : ∀ (n : Nat) (t prev val : K) (x : List (K × K)) r, Traj.primStepLoop f a b dt n t prev val x = some r → ∀ m, n ≤ m → Traj.primStepLoop f a b dt m t prev val x = some r := by
    intro n
    induction n with
    | zero => intro t prev val x r h; cases h
    | succ n ih =>
      intro t prev val x r h m hm
      obtain ⟨m, rfl⟩ : ∃ k, m = k + 1 := ⟨m - 1, by omega⟩
      rw [Traj.primStepLoop] at h ⊢
      by_cases htb : t < b
      · rw [if_pos htb] at h ⊢
        exact ih _ _ _ _ _ h _ (by omega)
      · rw [if_neg htb] at h ⊢
        exact h
  obtain ⟨n, hn⟩ := Archimedean.arch (b - a) hdt
  obtain ⟨l, e, rest⟩ := key n (by rw [nsmul_eq_mul] at hn; linarith)
  refine ⟨l, ⟨n + 1, fun m hm => ?_⟩, rest⟩
  unfold Traj.primStep at e ⊢
  cases e' : Traj.primStepLoop f a b dt (n + 1) a a c [] with
  | none => rw [e'] at e; cases e
  | some r => rw [mono _ _ _ _ _ _ e' m hm, ← e', e]

theorem trap_error {f : ℝ → ℝ} {a b h L : ℝ} (hf : ContinuousOn f (Set.Icc a b)) (hL : ∀ s ∈ Set.Icc a b, ∀ t ∈ Set.Icc a b, |f s - f t| ≤ L * |s - t|) (hL0 : 0 ≤ L) :
    ∀ {p : ℝ × ℝ} {l : List (ℝ × ℝ)}, TrapList f h (p :: l) → (∀ q ∈ p :: l, a ≤ q.1 ∧ q.1 ≤ b) → ∀ q ∈ p :: l,
      p.1 ≤ q.1 ∧ |q.2 - p.2 - ∫ s in p.1..q.1, f s| ≤ L * h * (q.1 - p.1) / 2
  | p, [], _, _, q, hq => by
    rw [List.mem_singleton.mp hq]
    simp
  | p, r :: l, H, hd, q, hq => by
    rcases List.mem_cons.mp hq with rfl | hq
    · simp
    · obtain ⟨⟨h1, h2, h3⟩, H'⟩ := H
      obtain ⟨k1, k2⟩ := trap_error hf hL hL0 H' (fun s hs => hd s (by simp [List.mem_cons.mp hs])) q hq
      obtain ⟨p1, p2⟩ := hd p (by simp)
      obtain ⟨r1, r2⟩ := hd r (by simp)
      obtain ⟨q1, q2⟩ := hd q (List.mem_cons_of_mem _ hq)
      have int : ∀ u v, a ≤ u → u ≤ v → v ≤ b → IntervalIntegrable f MeasureTheory.volume u v := fun u v hu huv hv =>
        (hf.mono (by rw [Set.uIcc_of_le huv]; exact Set.Icc_subset_Icc hu hv)).intervalIntegrable
      have i1 := int p.1 r.1 p1 h1.le r2
      have i2 := int r.1 q.1 r1 k1 q2
      refine ⟨h1.le.trans k1, ?_⟩
      have e1 : |∫ s in p.1..r.1, (f s - (f p.1 + f r.1) / 2)| ≤ L * (r.1 - p.1) / 2 * |r.1 - p.1| := by
        rw [← Real.norm_eq_abs]
        refine intervalIntegral.norm_integral_le_of_norm_le_const fun s hs => ?_
        rw [Set.uIoc_of_le h1.le] at hs
        have hs' : s ∈ Set.Icc a b := ⟨p1.trans hs.1.le, hs.2.trans r2⟩
        have g1 := hL s hs' p.1 ⟨p1, p2⟩
        have g2 := hL s hs' r.1 ⟨r1, r2⟩
        rw [abs_of_nonneg (by linarith [hs.1] : 0 ≤ s - p.1)] at g1
        rw [abs_of_nonpos (by linarith [hs.2] : s - r.1 ≤ 0)] at g2
        rw [abs_le] at g1 g2
        rw [Real.norm_eq_abs, abs_le]
        constructor <;> nlinarith [g1.1, g1.2, g2.1, g2.2]
      rw [intervalIntegral.integral_sub i1 intervalIntegrable_const, intervalIntegral.integral_const, abs_of_pos (by linarith : 0 < r.1 - p.1), smul_eq_mul] at e1
      have e2 : L * (r.1 - p.1) / 2 * (r.1 - p.1) ≤ L * h * (r.1 - p.1) / 2 := by
        have := mul_le_mul_of_nonneg_left h2 (mul_nonneg hL0 (by linarith : 0 ≤ r.1 - p.1))
        nlinarith [this]
      rw [← intervalIntegral.integral_add_adjacent_intervals i1 i2]
      rw [abs_le] at e1 k2 ⊢
      constructor <;> nlinarith [e1.1, e1.2, k2.1, k2.2]

/-- **C160**: for a trajectory whose values vary by at most `L` per unit of time, each sample of the primitive is at most at `L dt (t - a) / 2` of the exact primitive -/
theorem C160_error {f : ℝ → ℝ} {a b dt L : ℝ} (hab : a ≤ b) (hdt : 0 < dt) (hL0 : 0 ≤ L) (hL : ∀ s ∈ Set.Icc a b, ∀ t ∈ Set.Icc a b, |f s - f t| ≤ L * |s - t|) (c : ℝ) :
    ∃ l, (∃ N, ∀ n, N ≤ n → Traj.primStep n f a b c dt = some l) ∧ ∀ p ∈ l, |p.2 - (c + ∫ s in a..p.1, f s)| ≤ L * dt * (p.1 - a) / 2 := by
  have hf : ContinuousOn f (Set.Icc a b) := by
    have : LipschitzOnWith ⟨L, hL0⟩ f (Set.Icc a b) := LipschitzOnWith.of_dist_le_mul fun s hs t ht => by
      rw [Real.dist_eq, Real.dist_eq]
      exact hL s hs t ht
    exact this.continuousOn
  obtain ⟨l, hN, ht, hh, hd, -⟩ := C160_samples f hab hdt c
  refine ⟨l, hN, fun p hp => ?_⟩
  cases l with
  | nil => cases hp
  | cons q l =>
    cases hh
    have := (trap_error hf hL hL0 ht hd p hp).2
    rwa [sub_sub] at this

/-- hypotheses of `C160_*` met: the primitive of `2 t` on `[0, 5/2]` -/
example : Traj.primStep 10 (fun t : ℚ => 2 * t) 0 (5 / 2) 1 1 = some [(0, 1), (1, 2), (2, 5), (5 / 2, 29 / 4)] := by decide +kernel

example : (0 : ℝ) ≤ 5 / 2 ∧ ∀ s ∈ Set.Icc (0 : ℝ) (5 / 2), ∀ t ∈ Set.Icc (0 : ℝ) (5 / 2), |2 * s - 2 * t| ≤ 2 * |s - t| :=
  ⟨by norm_num, fun s _ t _ => by rw [← mul_sub, abs_mul, abs_of_pos (by norm_num : (0 : ℝ) < 2)]⟩

end Codac.Props
