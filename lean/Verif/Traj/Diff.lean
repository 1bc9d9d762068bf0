import Verif.Traj.Primitive

/-! # Finite differences of a sampled trajectory -/

set_option linter.unusedSectionVars false

namespace Codac

variable {K : Type*} [Field K] [LinearOrder K]

/-- the loop of `constant_timestep(h)`, codac_Trajectory.cpp:366-371 -/
def stepConst (h : K) : List (K × K) → Bool
  | p :: q :: l => decide (p.1 + h = q.1) && stepConst h (q :: l)
  | _ => true

/-- central finite differences, codac_Trajectory.cpp:590-604; `bwd` and `fwd` are the values around, the nearest first -/
def centralDiff (h : K) : List K → List K → Option K
  | [b0], [f0] => some (((-1 / 2) * b0 + (1 / 2) * f0) / h)
  | [b0, b1], [f0, f1] => some (((1 / 12) * b1 + (-2 / 3) * b0 + (2 / 3) * f0 + (-1 / 12) * f1) / h)
  | [b0, b1, b2], [f0, f1, f2] => some (((-1 / 60) * b2 + (3 / 20) * b1 + (-3 / 4) * b0 + (3 / 4) * f0 + (-3 / 20) * f1 + (1 / 60) * f2) / h)
  | [b0, b1, b2, b3], [f0, f1, f2, f3] =>
    some (((1 / 280) * b3 + (-4 / 105) * b2 + (1 / 5) * b1 + (-4 / 5) * b0 + (4 / 5) * f0 + (-1 / 5) * f1 + (4 / 105) * f2 + (-1 / 280) * f3) / h)
  | _, _ => none

/-- forward finite differences, codac_Trajectory.cpp:606-620 -/
def forwardDiff (h x : K) : List K → Option K
  | [f0] => some (((-1 / 1) * x + (1 / 1) * f0) / h)
  | [f0, f1] => some (((-3 / 2) * x + (2 / 1) * f0 + (-1 / 2) * f1) / h)
  | [f0, f1, f2] => some (((-11 / 6) * x + (3 / 1) * f0 + (-3 / 2) * f1 + (1 / 3) * f2) / h)
  | [f0, f1, f2, f3] => some (((-25 / 12) * x + (4 / 1) * f0 + (-3 / 1) * f1 + (4 / 3) * f2 + (-1 / 4) * f3) / h)
  | _ => none

/-- backward finite differences, codac_Trajectory.cpp:622-636 -/
def backwardDiff (h x : K) : List K → Option K
  | [b0] => some (((1 / 1) * x + (-1 / 1) * b0) / h)
  | [b0, b1] => some (((3 / 2) * x + (-2 / 1) * b0 + (1 / 2) * b1) / h)
  | [b0, b1, b2] => some (((11 / 6) * x + (-3 / 1) * b0 + (3 / 2) * b1 + (-1 / 3) * b2) / h)
  | [b0, b1, b2, b3] => some (((25 / 12) * x + (-4 / 1) * b0 + (3 / 1) * b1 + (-4 / 3) * b2 + (1 / 4) * b3) / h)
  | _ => none

/-- `finite_diff(t, h)`, codac_Trajectory.cpp:557-637, from the value `x` at `t` and all the values before (`bwd`, the nearest first) and after -/
def finiteDiff (h : K) (bwd : List K) (x : K) (fwd : List K) : Option K :=
  let f := fwd.take 4
  let b := bwd.take 4
  if f.length = b.length then centralDiff h b f
  else if f.length > b.length then forwardDiff h x f
  else backwardDiff h x b

/-- the loop of `diff()` for a constant step, codac_Trajectory.cpp:542-543 -/
def diffLoop (h : K) : List K → List (K × K) → Option (List (K × K))
  | _, [] => some []
  | bwd, p :: l => (finiteDiff h bwd p.2 (l.map Prod.snd)).bind fun v => (diffLoop h (p.2 :: bwd) l).map ((p.1, v) :: ·)

namespace Traj

/-- first step of the map, codac_Trajectory.cpp:364 -/
def firstStep : List (K × K) → K
  | p :: q :: _ => q.1 - p.1
  | _ => 0

/-- `diff()` of a map with a constant step, codac_Trajectory.cpp:538-544 -/
def diffConst (x : Traj K) : Option (Traj K) :=
  (diffLoop (firstStep x.pts) [] x.pts).map fun l => l.foldl (fun y p => y.set p.2 p.1) Traj.empty

/-- the loop of codac_Trajectory.cpp:528-530, over the instants `lb, lb + h, ...` smaller than `ub + h` -/
def resampleLoop (x : Traj K) (ub : K) : List K → Traj K → Option (Traj K)
  | [], d => some d
  | t :: ts, d => (x.evalAt (min ub t)).bind fun v => resampleLoop x ub ts (d.set v t)

/-- `diff()` of a trajectory defined by a map, codac_Trajectory.cpp:503-555; `none`: an assert fails, or more than `fuel` instants -/
def diff (fuel : Nat) (x : Traj K) : Option (Traj K) :=
  if x.pts.length > 2 then
    if stepConst (firstStep x.pts) x.pts then x.diffConst
    else
      match x.dom with
      | .mk (some lb) (some ub) _ =>
        (sampleTimes (ub + firstStep x.pts) (firstStep x.pts) fuel lb).bind fun ts =>
          (x.resampleLoop ub ts Traj.empty).bind fun d =>
            if stepConst (firstStep d.pts) d.pts && decide (d.pts.length > 2) then d.diffConst.bind fun e => e.truncate lb ub
            else none
      | _ => none
  else none

end Traj

/-! ### Exactness -/

variable [IsStrictOrderedRing K]

/-- the values `f (t + h), f (t + 2 h), ...` -/
def valuesFrom (f : K → K) (t h : K) : Nat → List K
  | 0 => []
  | n + 1 => f (t + h) :: valuesFrom f (t + h) h n

theorem valuesFrom_length (f : K → K) (t h : K) (n : Nat) : (valuesFrom f t h n).length = n := by
  induction n generalizing t with
  | zero => rfl
  | succ n ih => simp [valuesFrom, ih]

theorem valuesFrom_take (f : K → K) (t h : K) (n k : Nat) : (valuesFrom f t h n).take k = valuesFrom f t h (min k n) := by
  induction n generalizing t k with
  | zero => simp [valuesFrom]
  | succ n ih =>
    cases k with
    | zero => simp [valuesFrom]
    | succ k => rw [Nat.succ_min_succ]; simp [valuesFrom, ih]

/-- the values after an instant of a map with a constant step -/
theorem fwd_values {f : K → K} {h : K} {p : K × K} {l : List (K × K)} (hc : stepConst h (p :: l) = true) (hf : ∀ q ∈ l, q.2 = f q.1) :
    l.map Prod.snd = valuesFrom f p.1 h l.length := by
  induction l generalizing p with
  | nil => rfl
  | cons q l ih =>
    rw [stepConst, Bool.and_eq_true, decide_eq_true_iff] at hc
    rw [List.map_cons, List.length_cons, valuesFrom, hc.1, ih hc.2 fun r hr => hf r (List.mem_cons_of_mem _ hr), hf q (by simp)]

/-- exactness of the finite differences with `b` values before and `n` values after, for the functions of a class -/
def DiffExact (f f' : K → K) (b n : Nat) : Prop :=
  ∀ t h, h ≠ 0 → finiteDiff h (valuesFrom f t (-h) b) (f t) (valuesFrom f t h n) = some (f' t)

theorem diffLoop_exact {f f' : K → K} {N : Nat} (hex : ∀ b n, b + 1 + n = N → DiffExact f f' b n) {h : K} (hh : h ≠ 0) :
    ∀ (l : List (K × K)) (b : Nat) (bwd : List K), stepConst h l = true → (∀ q ∈ l, q.2 = f q.1) → b + l.length = N →
      (∀ p l', l = p :: l' → bwd = valuesFrom f p.1 (-h) b) →
      diffLoop h bwd l = some (l.map fun p => (p.1, f' p.1)) := by
  intro l
  induction l with
  | nil => intros; rfl
  | cons p l ih =>
    intro b bwd hc hf hlen hb
    have hbw := hb p l rfl
    have hfw := fwd_values hc fun q hq => hf q (List.mem_cons_of_mem _ hq)
    rw [diffLoop, hbw, hfw, hf p (by simp), hex b l.length (by simp only [List.length_cons] at hlen; omega) p.1 h hh, Option.bind_some]
    have hc' : stepConst h l = true := by
      cases l with
      | nil => rfl
      | cons q l => rw [stepConst, Bool.and_eq_true] at hc; exact hc.2
    rw [ih (b + 1) _ hc' (fun q hq => hf q (List.mem_cons_of_mem _ hq)) (by simp only [List.length_cons] at hlen; omega) ?_]
    · rfl
    · rintro q l' rfl
      rw [stepConst, Bool.and_eq_true, decide_eq_true_iff] at hc
      rw [valuesFrom, ← hc.1]
      simp

/-- a quadratic function: at least three points are enough everywhere -/
theorem diffExact_quad (a b c : K) {i n : Nat} (hin : 3 ≤ i + 1 + n) : DiffExact (fun t => a + b * t + c * t ^ 2) (fun t => b + 2 * c * t) i n := by
  intro t h hh
  unfold finiteDiff
  dsimp only
  rw [valuesFrom_take, valuesFrom_take, valuesFrom_length, valuesFrom_length]
  have hi : min 4 i ≤ 4 := min_le_left _ _
  have hn : min 4 n ≤ 4 := min_le_left _ _
  have h3 : 2 ≤ min 4 i + min 4 n := by omega
  generalize min 4 i = i at *
  generalize min 4 n = n at *
  interval_cases i <;> interval_cases n <;> first
    | (exfalso; omega)
    | (simp [centralDiff, forwardDiff, backwardDiff, valuesFrom]; field_simp; ring)

/-- a polynomial of degree four: nine points are enough everywhere -/
theorem diffExact_quartic (a b c d e : K) {i n : Nat} (hin : 9 ≤ i + 1 + n) :
    DiffExact (fun t => a + b * t + c * t ^ 2 + d * t ^ 3 + e * t ^ 4) (fun t => b + 2 * c * t + 3 * d * t ^ 2 + 4 * e * t ^ 3) i n := by
  intro t h hh
  unfold finiteDiff
  dsimp only
  rw [valuesFrom_take, valuesFrom_take, valuesFrom_length, valuesFrom_length]
  have hi : min 4 i ≤ 4 := min_le_left _ _
  have hn : min 4 n ≤ 4 := min_le_left _ _
  have h3 : min 4 i = 4 ∨ min 4 n = 4 := by omega
  generalize min 4 i = i at *
  generalize min 4 n = n at *
  interval_cases i <;> interval_cases n <;> first
    | (exfalso; omega)
    | (simp [centralDiff, forwardDiff, backwardDiff, valuesFrom]; field_simp; ring)

theorem diff_exact {f f' : K → K} {x : Traj K} (h : TrajOk x) (hlen : 3 ≤ x.pts.length) (hc : stepConst (Traj.firstStep x.pts) x.pts = true)
    (hf : ∀ p ∈ x.pts, p.2 = f p.1) (hex : ∀ b n, b + 1 + n = x.pts.length → DiffExact f f' b n) (fuel : Nat) :
    ∃ d, x.diff fuel = some d ∧ TrajOk d ∧ d.dom = x.dom ∧ ∀ p ∈ x.pts, d.evalAt p.1 = some (f' p.1) := by
  have hh : Traj.firstStep x.pts ≠ 0 := by
    cases hl : x.pts with
    | nil => rw [hl] at hlen; simp at hlen
    | cons p l =>
      cases l with
      | nil => rw [hl] at hlen; simp at hlen
      | cons q l =>
        have hs := h.sorted
        rw [hl] at hs
        exact sub_ne_zero.mpr (ne_of_gt (hs.head q (by simp)))
  have hloop := diffLoop_exact hex hh x.pts 0 [] hc hf (by simp) (fun _ _ _ => rfl)
  have hs : SortedPts (x.pts.map fun p => (p.1, f' p.1)) := by
    rw [sortedPts_iff, List.map_map]
    exact sortedPts_iff.mp h.sorted
  obtain ⟨h1, h2⟩ := foldl_set (x.pts.map fun (p : K × K) => (p.1, f' p.1)) Traj.empty trajOk_empty hs
  refine ⟨_, ?_, h1, ?_, ?_⟩
  · unfold Traj.diff
    rw [if_pos (by omega), if_pos hc, Traj.diffConst, hloop]
    rfl
  · have hd := h1.dom
    rw [h2] at hd
    have : ((Traj.empty : Traj K).pts ++ x.pts.map fun (p : K × K) => (p.1, f' p.1)).map Prod.fst = x.pts.map Prod.fst := by
      simp [Traj.empty, Function.comp_def]
    rw [this] at hd
    exact hd.unique h.dom
  · intro p hp
    rw [evalAt_iff h1, h2]
    exact .inl (by simp only [Traj.empty, List.nil_append]; exact List.mem_map.mpr ⟨p, hp, rfl⟩)

end Codac
