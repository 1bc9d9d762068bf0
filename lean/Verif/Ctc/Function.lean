import Verif.Ctc.Static
import Verif.Ctc.Boxes

/-!
# `CtcFunction` on tubes and `CtcConstell`

Sources: `src/core/contractors/static/codac_CtcFunction.cpp:45-256`, `src/robotics/contractors/codac_CtcConstell.cpp`. The box contractor
`CtcFwdBwd` of IBEX is a parameter.
-/

namespace Codac

variable {K : Type*} [LinearOrder K]

/-- one iteration of the loop, codac_CtcFunction.cpp:220-254, on the slices of index `k`; `last`: there is no next slice -/
def functionStep (ctc : List (Itv K) → List (Itv K)) (k : Nat) (last : Bool) (xs : List (Tube K)) : List (Tube K) :=
  let env := ctc (xs.map fun T => T.codAt k)
  let ing := ctc (xs.map fun T => T.inGAt k)
  let xs1 := updAll k xs (List.zipWith staticSet env ing)
  if last then updAll k xs1 ((ctc (xs1.map fun T => T.outGAt k)).map fun g => Slice.setOutputGate g true) else xs1

/-- the loop on the `n` slices left, from the index `k` -/
def functionLoop (ctc : List (Itv K) → List (Itv K)) : Nat → Nat → List (Tube K) → List (Tube K)
  | 0, _, xs => xs
  | n + 1, k, xs => functionLoop ctc n (k + 1) (functionStep ctc k (n == 0) xs)

/-- `CtcFunction::contract` on tubes, codac_CtcFunction.cpp:45-256: `TubeVector` or up to ten `Tube`. `none` when the slicings differ: in the
code, slices of different time domains are then mixed, or a null pointer is followed -/
def functionContract (ctc : List (Itv K) → List (Itv K)) (xs : List (Tube K)) : Option (List (Tube K)) :=
  match xs with
  | [] => none
  | x :: l => if l.all (fun y => x.sameSlicing y) then some (functionLoop ctc x.slices.length 0 xs) else none

/-- `CtcConstell::contract`, codac_CtcConstell.cpp:36-45: `map` the boxes of the landmarks, of which the first two components are read -/
def ctcConstell (map : List (Box K)) (a : Box K) : Box K := map.foldl (fun u m => u.hull (a.inter (m.take 2))) (Box.empty 2)

theorem icc_intersects_top {a b : K} (h : a ≤ b) : (Itv.icc a b).intersects (⊤ : Itv K) = true :=
  Itv.intersects_of_mem (Itv.mem_icc.mpr ⟨le_rfl, h⟩) (Itv.mem_top _)

theorem functionLoop_eq (ctc : List (Itv K) → List (Itv K)) : ∀ (bs : List (K × K)) (k : Nat) (xs : List (Tube K)), (∀ b ∈ bs, b.1 ≤ b.2) →
    functionLoop ctc bs.length k xs = staticLoop ⊤ false ctc k bs xs := by
  intro bs
  induction bs with
  | nil => intro k xs _; rfl
  | cons b bs ih =>
    intro k xs h
    have hi : (Itv.icc b.1 b.2).intersects (⊤ : Itv K) = true :=
      icc_intersects_top (h b (by simp))
    have hs : functionStep ctc k (bs.length == 0) xs = staticStep ⊤ false ctc k b bs.isEmpty xs := by
      unfold functionStep staticStep
      rw [if_pos hi]
      cases bs <;> rfl
    simp only [List.length_cons, functionLoop, staticLoop]
    rw [hs]
    exact ih (k + 1) _ fun b hb => h b (by simp [hb])

/-- `CtcFunction` on tubes is `CtcStatic` of the box contractor, without restricted time domain -/
theorem functionContract_eq {ctc : List (Itv K) → List (Itv K)} {xs : List (Tube K)} (hw : ∀ T ∈ xs, T.WF) :
    functionContract ctc xs = staticContract ⊤ false ctc xs := by
  cases xs with
  | nil => rfl
  | cons x l =>
    unfold functionContract staticContract
    dsimp only
    split_ifs
    · rw [← functionLoop_eq, List.length_map]
      intro b hb
      obtain ⟨s, hs, rfl⟩ := List.mem_map.mp hb
      exact ((hw x (by simp)).tiles.mem_bounds hs).2.1.le
    · rfl

theorem ctcConstell_eq (map : List (Box K)) (a : Box K) : ctcConstell map a = ctcUnion 2 (map.map fun m x => x.inter (m.take 2)) a := by
  unfold ctcConstell ctcUnion ctcUnionStep
  rw [List.foldl_map]

end Codac
