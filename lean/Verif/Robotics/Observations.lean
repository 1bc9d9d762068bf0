import Verif.Arith
import Mathlib.Data.List.Perm.Basic

/-!
# Simulated observations of landmarks (robotics/data/codac_DataLoader.cpp)

The random choices (order of the landmarks, instants) are parameters. `K` stands for the doubles.
-/

set_option linter.unusedSectionVars false

namespace Codac.Obs

variable {K : Type*} [Field K] [LinearOrder K]

/-- the interval functions used to compute observations: the arithmetic, `sqrt(pow(dx,2)+pow(dy,2))` and `atan2(dy,dx)` of IBEX -/
structure Sensor (K : Type*) [Field K] [LinearOrder K] where
  A : IArith K
  dist : Itv K → Itv K → Itv K
  atan2 : Itv K → Itv K → Itv K

/-- `Beacon`, codac_Beacon.cpp:19-35: a position and a box, in the plane -/
structure Beacon (K : Type*) [LinearOrder K] where
  x : K
  y : K
  bx : Itv K
  bY : Itv K

/-- `Beacon(pos)`, codac_Beacon.cpp:19-23, and `Beacon(x,y)`, 31-35 -/
def Beacon.ofPos (x y : K) : Beacon K := ⟨x, y, .point x, .point y⟩

/-- `Beacon(pos_box)`, codac_Beacon.cpp:25-29, `mid` being the middle of an interval -/
def Beacon.ofBox (mid : Itv K → K) (bx bY : Itv K) : Beacon K := ⟨mid bx, mid bY, bx, bY⟩

/-- `generate_landmarks`, codac_DataLoader.cpp:68-83, in the box `[a,b]×[c,d]`: `us` are the values of `rand()/RAND_MAX`, two for each landmark -/
def landmarks (a b c d : K) (us : List (K × K)) : List (Beacon K) := us.map fun u => .ofPos (a + u.1 * (b - a)) (c + u.2 * (d - c))

/-- range and bearing of the landmark `b` from the pose `(px,py,θ)`, codac_DataLoader.cpp:114-115 -/
def observe (S : Sensor K) (px py θ : K) (b : Itv K × Itv K) : Itv K × Itv K :=
  (S.dist (S.A.sub (.point px) b.1) (S.A.sub (.point py) b.2), S.A.sub (S.atan2 (S.A.sub b.2 (.point py)) (S.A.sub b.1 (.point px))) (.point θ))

/-- the loop of `generate_observations(x, map, …)`, codac_DataLoader.cpp:112-123, on the shuffled map -/
def staticObs (S : Sensor K) (px py θ : K) (vr va : Itv K) (map : List (Itv K × Itv K)) : List (Itv K × Itv K) :=
  (map.map (observe S px py θ)).filter fun o => vr.intersects o.1 && va.intersects o.2

/-- the fields of an observation along a trajectory, codac_DataLoader.cpp:169-171 -/
structure TObs (K : Type*) [LinearOrder K] where
  t : K
  r : Itv K
  a : Itv K
  bx : Itv K
  bY : Itv K

/-- the observation of `b` at `t`, codac_DataLoader.cpp:161-164; `X`, `Y` are the values of the trajectory as intervals, `x`, `y` as doubles -/
def observeT (S : Sensor K) (X Y : K → Itv K) (x y : K → K) (eps t : K) (b : Beacon K) : TObs K :=
  let heading := S.atan2 (S.A.sub (.point (y (t + eps))) (Y t)) (S.A.sub (.point (x (t + eps))) (X t))
  ⟨t, S.dist (S.A.sub (X t) (.point b.x)) (S.A.sub (Y t) (.point b.y)),
    S.A.sub (S.atan2 (S.A.sub (.point b.y) (Y t)) (S.A.sub (.point b.x) (X t))) heading, b.bx, b.bY⟩

/-- the test of codac_DataLoader.cpp:166 -/
def TObs.seen (vr va : Itv K) (o : TObs K) : Bool := vr.intersects o.r && va.intersects o.a

/-- the inner loop, codac_DataLoader.cpp:158-175: the first landmark that is seen -/
def attempt (f : Beacon K → TObs K) (vr va : Itv K) (map : List (Beacon K)) : Option (TObs K) := (map.map f).find? (TObs.seen vr va)

/-- the outer loop, codac_DataLoader.cpp:148-178: `sh k` and `ts k` are the order of the landmarks and the instant of the attempt `k`, `v` the observations.
`none`: more than `n` iterations -/
def trajLoop (F : K → Beacon K → TObs K) (vr va : Itv K) (nb : Nat) (sh : Nat → List (Beacon K)) (ts : Nat → K) : Nat → Nat → List (TObs K) → Option (List (TObs K))
  | 0, _, _ => none
  | n + 1, k, v =>
    let v' := v ++ (attempt (F (ts k)) vr va (sh k)).toList
    if v'.length < nb ∧ k + 1 < nb * 3 then trajLoop F vr va nb sh ts n (k + 1) v' else some v'

/-- `generate_observations(x, map, nb_obs, …)` along a trajectory, codac_DataLoader.cpp:136-181 -/
def trajObs (S : Sensor K) (X Y : K → Itv K) (x y : K → K) (eps : K) (vr va : Itv K) (nb : Nat) (sh : Nat → List (Beacon K)) (ts : Nat → K) :
    Option (List (TObs K)) :=
  trajLoop (observeT S X Y x y eps) vr va nb sh ts (nb * 3 + 1) 0 []

/-! ### Proofs -/

/-- an observation that is returned comes from an attempt -/
theorem trajLoop_mem {F : K → Beacon K → TObs K} {vr va : Itv K} {nb : Nat} {sh : Nat → List (Beacon K)} {ts : Nat → K} {n k : Nat} {v r : List (TObs K)}
    (h : trajLoop F vr va nb sh ts n k v = some r) {o : TObs K} (ho : o ∈ r) :
    o ∈ v ∨ ∃ j, (j < nb * 3 ∨ j = k) ∧ ∃ b ∈ sh j, o = F (ts j) b ∧ o.seen vr va = true := by
  induction n generalizing k v with
  | zero => cases h
  | succ n ih =>
    rw [trajLoop] at h
    have hnew : ∀ o ∈ v ++ (attempt (F (ts k)) vr va (sh k)).toList, o ∈ v ∨ ∃ b ∈ sh k, o = F (ts k) b ∧ o.seen vr va = true := by
      intro o ho
      rcases List.mem_append.mp ho with ho | ho
      · exact .inl ho
      · rw [Option.mem_toList] at ho
        unfold attempt at ho
        have h1 := List.mem_of_find?_eq_some ho
        have h2 := List.find?_some ho
        obtain ⟨b, hb, rfl⟩ := List.mem_map.mp h1
        exact .inr ⟨b, hb, rfl, h2⟩
    by_cases hc : (v ++ (attempt (F (ts k)) vr va (sh k)).toList).length < nb ∧ k + 1 < nb * 3
    · rw [if_pos hc] at h
      rcases ih h with h1 | ⟨j, hj, h1⟩
      · rcases hnew o h1 with h2 | h2
        · exact .inl h2
        · exact .inr ⟨k, .inr rfl, h2⟩
      · refine .inr ⟨j, .inl ?_, h1⟩
        rcases hj with hj | hj
        · exact hj
        · rw [hj]; exact hc.2
    · rw [if_neg hc] at h
      cases h
      rcases hnew o ho with h2 | h2
      · exact .inl h2
      · exact .inr ⟨k, .inr rfl, h2⟩

theorem toList_length_le {α : Type*} (o : Option α) : o.toList.length ≤ 1 := by cases o <;> simp

/-- enough iterations; the number of observations -/
theorem trajLoop_total (F : K → Beacon K → TObs K) (vr va : Itv K) (nb : Nat) (sh : Nat → List (Beacon K)) (ts : Nat → K) {n k : Nat} {v : List (TObs K)}
    (hn : nb * 3 < n + k) (hn0 : n ≠ 0) (hv : v.length < nb ∨ v = []) : ∃ r, trajLoop F vr va nb sh ts n k v = some r ∧ r.length ≤ max 1 nb := by
  induction n generalizing k v with
  | zero => exact absurd rfl hn0
  | succ n ih =>
    rw [trajLoop]
    have hl := toList_length_le (attempt (F (ts k)) vr va (sh k))
    by_cases hc : (v ++ (attempt (F (ts k)) vr va (sh k)).toList).length < nb ∧ k + 1 < nb * 3
    · rw [if_pos hc]
      exact ih (by omega) (by omega) (.inl hc.1)
    · rw [if_neg hc]
      refine ⟨_, rfl, ?_⟩
      rw [List.length_append]
      rcases hv with hv | rfl
      · omega
      · rw [List.length_nil]; omega

/-- when a landmark is seen at each attempt, the number of observations is the one that is asked for -/
theorem trajLoop_length {F : K → Beacon K → TObs K} {vr va : Itv K} {nb : Nat} {sh : Nat → List (Beacon K)} {ts : Nat → K}
    (hs : ∀ j < nb * 3, ∃ b ∈ sh j, (F (ts j) b).seen vr va = true) {n k : Nat} {v r : List (TObs K)} (hk : v.length = k) (hv : k < nb)
    (h : trajLoop F vr va nb sh ts n k v = some r) : r.length = nb := by
  induction n generalizing k v with
  | zero => cases h
  | succ n ih =>
    rw [trajLoop] at h
    have h1 : (attempt (F (ts k)) vr va (sh k)).toList.length = 1 := by
      obtain ⟨b, hb, hb'⟩ := hs k (by omega)
      cases ha : attempt (F (ts k)) vr va (sh k) with
      | none =>
        unfold attempt at ha
        have := List.find?_eq_none.mp ha _ (List.mem_map.mpr ⟨b, hb, rfl⟩)
        exact absurd hb' this
      | some o => rfl
    by_cases hc : (v ++ (attempt (F (ts k)) vr va (sh k)).toList).length < nb ∧ k + 1 < nb * 3
    · rw [if_pos hc] at h
      have hc1 := hc.1
      rw [List.length_append, h1, hk] at hc1
      exact ih (by rw [List.length_append, h1, hk]) hc1 h
    · rw [if_neg hc] at h
      cases h
      rw [List.length_append, h1, hk] at hc ⊢
      omega

end Codac.Obs
