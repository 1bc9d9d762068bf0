import Verif.Tube.Build

/-!
# Tube of a guaranteed integration

Models the last part of `CAPD_integrateODE` (`/repo/src/3rd/capd/codac_capd_integrateODE.cpp`). The integration itself is done by CAPD: the solution curve is a
parameter, `sol a b i` is the `i`-th component of `solution(capd::interval(a,b))`.
-/

namespace Codac.Capd
variable {K : Type*} [LinearOrder K]

/-- `v_s[i]->set(CapdHelpers::c2i_i(y[i]))`, codac_capd_integrateODE.cpp:71-75, where `y` is the curve on the time domain of the slice. The domain is the one of
the first component in the code: all components have the same slices. -/
def capdSet (sol : K → K → Nat → Itv K) (i : Nat) : Setter K := fun prev next s => Slice.set (sol s.lb s.ub i) prev next s

/-- one turn of the loop over the slices, codac_capd_integrateODE.cpp:69-77: the `k`-th slice of each component -/
def capdTurn (sol : K → K → Nat → Itv K) (v : List (Tube K)) (k : Nat) : List (Tube K) := v.mapIdx fun i T => T.upd k (capdSet sol i)

/-- `CAPD_integrateODE`, codac_capd_integrateODE.cpp:63-80: `TubeVector(tdomain, tube_dt, n)`, then the loop over the slices. `none`: the construction of the
slices needs more than `fuel` turns. -/
def capdTube [Zero K] (add : K → K → K) (diam : K) (fuel : Nat) (n : Nat) (t0 tf dt : K) (sol : K → K → Nat → Itv K) : Option (List (Tube K)) :=
  (Tube.ofStep add diam fuel t0 tf dt ⊤).map fun T => (List.range T.nbSlices).foldl (capdTurn sol) (List.replicate n T)

/-! ## what the loop does -/

theorem foldl_turn (sol : K → K → Nat → Itv K) (l : List Nat) (v : List (Tube K)) :
    l.foldl (capdTurn sol) v = v.mapIdx fun i T => l.foldl (fun T k => T.upd k (capdSet sol i)) T := by
  induction l generalizing v with
  | nil =>
    rw [List.foldl_nil]
    apply List.ext_getElem?
    intro j
    rw [List.getElem?_mapIdx]
    cases v[j]? <;> rfl
  | cons k l ih =>
    rw [List.foldl_cons, ih]
    apply List.ext_getElem?
    intro j
    rw [List.getElem?_mapIdx, List.getElem?_mapIdx, capdTurn, List.getElem?_mapIdx]
    cases v[j]? <;> rfl

theorem fwd_capd_bounds (sol : K → K → Nat → Itv K) (i : Nat) (k : Nat) (p : Option (Itv K)) (g : Itv K) (cs : List (Cell K)) :
    (fwd (fun _ => capdSet sol i) k p g cs).2.map (fun c => (c.lb, c.ub)) = cs.map (fun c => (c.lb, c.ub)) := by
  induction cs generalizing k p g with
  | nil => rfl
  | cons c cs ih => simp only [fwd, List.map_cons, ih]

/-- after the loop, each gate is the meet of the values on the two slices around it -/
theorem fwd_capd (sol : K → K → Nat → Itv K) (i : Nat) (k : Nat) (p : Option (Itv K)) (g : Itv K) (c : Cell K) (cs : List (Cell K)) :
    (fwd (fun _ => capdSet sol i) k p g (c :: cs)).1 = infOpt (sol c.lb c.ub i) p := by
  simp only [fwd, capdSet, Slice.set]

theorem slices_capd (sol : K → K → Nat → Itv K) (i : Nat) (k : Nat) (p : Option (Itv K)) (g : Itv K) (cs : List (Cell K)) (j : Nat) :
    (slicesFrom (fwd (fun _ => capdSet sol i) k p g cs).1 (fwd (fun _ => capdSet sol i) k p g cs).2)[j]? =
      cs[j]?.map fun c => ⟨c.lb, c.ub, sol c.lb c.ub i,
        infOpt (sol c.lb c.ub i) (if j = 0 then p else cs[j - 1]?.map fun d => sol d.lb d.ub i),
        infOpt (sol c.lb c.ub i) (cs[j + 1]?.map fun d => sol d.lb d.ub i)⟩ := by
  induction cs generalizing k p g j with
  | nil => rfl
  | cons c cs ih =>
    have ih' := ih (k + 1) (some (sol c.lb c.ub i)) (infOpt (sol c.lb c.ub i) (cs.head?.map Cell.cod))
    simp only [fwd, capdSet, Slice.set, slicesFrom_cons] at ih' ⊢
    cases j with
    | zero =>
      simp only [List.getElem?_cons_zero, Option.map_some, if_true, zero_add, List.getElem?_cons_succ]
      cases cs with
      | nil => simp [fwd, infOpt]
      | cons d cs =>
        simp only [List.getElem?_cons_zero, Option.map_some]
        rw [fwd_capd]
        simp only [infOpt, inf_comm]
    | succ j =>
      rw [List.getElem?_cons_succ, ih' j, show (c :: cs)[j + 1]? = cs[j]? from rfl]
      cases hj : cs[j]? with
      | none => rfl
      | some d => cases j <;> simp

theorem tiles_next {a b : K} {cs : List (Cell K)} (h : Tiles a cs b) {j : Nat} {c d : Cell K} (hc : cs[j]? = some c) (hd : cs[j + 1]? = some d) : c.ub = d.lb := by
  induction cs generalizing a j with
  | nil => simp at hc
  | cons e cs ih =>
    obtain ⟨_, _, h3⟩ := h
    cases j with
    | zero =>
      simp only [List.getElem?_cons_zero, Option.some.injEq] at hc
      subst hc
      cases cs with
      | nil => simp at hd
      | cons e' cs => simp at hd; subst hd; exact h3.1.symm
    | succ j => exact ih h3 (by simpa using hc) (by simpa using hd)

theorem tiles_le {a b : K} {cs : List (Cell K)} (h : Tiles a cs b) {c : Cell K} (hc : c ∈ cs) : a ≤ c.lb ∧ c.lb < c.ub ∧ c.ub ≤ b := by
  induction cs generalizing a with
  | nil => simp at hc
  | cons e cs ih =>
    obtain ⟨h1, h2, h3⟩ := h
    rcases List.mem_cons.mp hc with rfl | hc
    · exact ⟨h1.ge, h2, h3.le⟩
    · obtain ⟨k1, k2, k3⟩ := ih h3 hc
      exact ⟨(h1 ▸ h2.le).trans k1, k2, k3⟩

end Codac.Capd
