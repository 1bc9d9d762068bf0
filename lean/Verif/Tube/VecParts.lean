import Verif.Tube.VecOps
import Verif.Tube.VecOpsProofs
import Verif.Tube.TrajOps

/-!
# Vectors of tubes: parts, sampling, values set on an interval, inflation, temporal domain

Source: `src/core/domains/tube/codac_TubeVector.cpp`. A `TubeVector` is the list of its components; `none`: an assert is violated.
-/

namespace Codac.TuVec
open Codac

section order
variable {K : Type*} [LinearOrder K]

/-- `subvector(start_index, end_index)`, codac_TubeVector.cpp:242-251; indices are not negative -/
def subvector (x : List (Tube K)) (i j : Nat) : Option (List (Tube K)) :=
  if j < x.length ∧ i ≤ j ∧ tdomain x ≠ none then some ((x.drop i).take (j - i + 1)) else none

/-- the loop of `put`, codac_TubeVector.cpp:257-258 -/
def putLoop (i : Nat) : List (Tube K) → List (Tube K) → List (Tube K)
  | [], x => x
  | T :: l, x => putLoop (i + 1) l (x.set i T)

/-- `put(start_index, subvec)`, codac_TubeVector.cpp:253-259: nothing is asserted on the temporal domains -/
def put (x : List (Tube K)) (i : Nat) (sub : List (Tube K)) : Option (List (Tube K)) :=
  if i + sub.length ≤ x.length then some (putLoop i sub x) else none

/-- `sample(t)`, codac_TubeVector.cpp:296-301 -/
def sampleT (x : List (Tube K)) (t : K) : Option (List (Tube K)) :=
  match tdomain x with
  | some d => if d.1 ≤ t ∧ t ≤ d.2 then some (x.map fun T => T.sample t) else none
  | none => none

/-- `sample(x)` with a tube, codac_TubeVector.cpp:311-316 -/
def sampleLikeTube (x : List (Tube K)) (y : Tube K) : Option (List (Tube K)) :=
  if tdomain x = some (y.t0, y.tf) then some (x.map fun T => T.sampleLike y) else none

/-- `sample(x)` with a vector of tubes, codac_TubeVector.cpp:318-324 -/
def sampleLikeVec (x y : List (Tube K)) : Option (List (Tube K)) :=
  if tdomain x ≠ none ∧ tdomain x = tdomain y ∧ x.length = y.length then some (List.zipWith (fun T Y => T.sampleLike Y) x y) else none

/-- `set(y, t)` with an interval `[a,b]`, `a < b`, codac_TubeVector.cpp:794-801 -/
def setItv (x : List (Tube K)) (y : Box K) (a b : K) : Option (List (Tube K)) :=
  match tdomain x with
  | some d => if x.length = y.length ∧ d.1 ≤ a ∧ b ≤ d.2 then some (List.zipWith (fun T Y => T.setItv Y a b) x y) else none
  | none => none

end order

section field
variable {K : Type*} [Field K] [LinearOrder K] [IsStrictOrderedRing K]

/-- `inflate(rad)` with a vector, codac_TubeVector.cpp:815-826 -/
def inflate (A : IArith K) (x : List (Tube K)) (rad : List K) : Option (List (Tube K)) :=
  if x.length = rad.length ∧ ∀ r ∈ rad, 0 ≤ r then some (List.zipWith (fun T r => T.map fun Y => A.add Y (Itv.icc (-r) r)) x rad) else none

/-- `inflate(rad)` with a number, codac_TubeVector.cpp:810-813 -/
def inflateNum (A : IArith K) (x : List (Tube K)) (rad : K) : Option (List (Tube K)) := inflate A x (List.replicate x.length rad)

/-- `inflate(rad)` with a vector of trajectories, codac_TubeVector.cpp:828-839; the assertions on the temporal domain and on the signs are those of each component -/
def inflateTrajs (A : IArith K) (x : List (Tube K)) (rad : List (Traj K)) : Option (List (Tube K)) :=
  if x.length = rad.length then TVec.allM (fun p : Tube K × Traj K => p.1.inflateTraj A p.2) (x.zip rad) else none

/-- `shift_tdomain(shift_ref)`, codac_TubeVector.cpp:848-852 -/
def shift (x : List (Tube K)) (d : K) : List (Tube K) := x.map fun T => T.shift d

end field

/-! ### Lemmas -/

section order
variable {K : Type*} [LinearOrder K]

theorem putLoop_length (l : List (Tube K)) : ∀ (i : Nat) (x : List (Tube K)), (putLoop i l x).length = x.length := by
  induction l with
  | nil => intro i x; rfl
  | cons T l ih => intro i x; rw [putLoop, ih, List.length_set]

theorem putLoop_get (l : List (Tube K)) : ∀ (i : Nat) (x : List (Tube K)), i + l.length ≤ x.length → ∀ j,
    (putLoop i l x)[j]? = if i ≤ j ∧ j < i + l.length then l[j - i]? else x[j]? := by
  induction l with
  | nil =>
    intro i x _ j
    rw [putLoop, if_neg]
    simp only [List.length_nil]; omega
  | cons T l ih =>
    intro i x h j
    simp only [List.length_cons] at h
    rw [putLoop, ih (i + 1) _ (by rw [List.length_set]; omega) j, List.getElem?_set]
    simp only [List.length_cons]
    by_cases h1 : i = j
    · subst h1
      rw [if_neg (by omega), if_pos rfl, if_pos (by omega), if_pos (by omega), Nat.sub_self]
      rfl
    · by_cases h2 : i + 1 ≤ j ∧ j < i + 1 + l.length
      · rw [if_pos h2, if_pos (by omega)]
        obtain ⟨k, rfl⟩ : ∃ k, j = i + 1 + k := ⟨j - (i + 1), by omega⟩
        rw [show i + 1 + k - (i + 1) = k by omega, show i + 1 + k - i = k + 1 by omega, List.getElem?_cons_succ]
      · rw [if_neg h2, if_neg h1, if_neg (by omega)]

end order

end Codac.TuVec
