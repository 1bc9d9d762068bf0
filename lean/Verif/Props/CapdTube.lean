import Verif.Traj.CapdTube
import Mathlib.Data.Rat.Floor

/-!
# C133 — tube of a guaranteed integration

Specification: the solution curve gives, for each interval of time, an enclosure `sol a b i` of the `i`-th component of all solutions on `[a,b]`.
-/

namespace Codac.Props
open Codac.Capd

variable {K : Type*} [Field K] [LinearOrder K] [IsStrictOrderedRing K]

/-- the curve given by CAPD encloses the motion `x` on each part of the time domain -/
def CurveHas (t0 tf : K) (sol : K → K → Nat → Itv K) (x : K → Nat → K) : Prop :=
  ∀ a b i t, t0 ≤ a → a < b → b ≤ tf → a ≤ t → t ≤ b → x t i ∈ sol a b i

/-- the tube of the component `i` after the loop -/
theorem capd_comp {diam : K} {fuel n : Nat} {t0 tf dt : K} {sol : K → K → Nat → Itv K} {v : List (Tube K)} (ht : t0 < tf) (hdt : 0 < dt)
    (h : capdTube (· + ·) diam fuel n t0 tf dt sol = some v) :
    v.length = n ∧ ∃ cs : List (Cell K), cs ≠ [] ∧ Tiles t0 cs tf ∧ (∀ c ∈ cs, c.ub - c.lb ≤ dt) ∧ ∀ (i : Nat) (T : Tube K), v[i]? = some T →
      T = ⟨t0, tf, (fwd (fun _ => capdSet sol i) 0 none ⊤ cs).1, (fwd (fun _ => capdSet sol i) 0 none ⊤ cs).2⟩ := by
  unfold capdTube at h
  rw [Option.map_eq_some_iff] at h
  obtain ⟨T0, h0, rfl⟩ := h
  simp only [Tube.ofStep, if_neg hdt.ne', if_true] at h0
  rw [Option.map_eq_some_iff] at h0
  obtain ⟨cs, hcs, rfl⟩ := h0
  obtain ⟨g1, g2, g3, _, _⟩ := buildCells_spec hdt ht hcs
  rw [foldl_turn]
  refine ⟨by simp, cs, g1, g2, g3, fun i T hi => ?_⟩
  rw [List.getElem?_mapIdx, Option.map_eq_some_iff] at hi
  obtain ⟨T1, h1, rfl⟩ := hi
  have e := List.eq_of_mem_replicate (List.mem_of_getElem? h1)
  subst e
  exact foldl_upd_range (fun _ => capdSet sol i) ⟨t0, tf, ⊤, cs⟩

/-- C133: the tube has one component per dimension, each over the whole time domain, with slices of at most `tube_dt`, the same for all components -/
theorem C133_slices {diam : K} {fuel n : Nat} {t0 tf dt : K} {sol : K → K → Nat → Itv K} {v : List (Tube K)} (ht : t0 < tf) (hdt : 0 < dt)
    (h : capdTube (· + ·) diam fuel n t0 tf dt sol = some v) :
    v.length = n ∧ ∃ l : List (K × K), (∀ d ∈ l, d.2 - d.1 ≤ dt) ∧
      ∀ T ∈ v, T.WF ∧ T.t0 = t0 ∧ T.tf = tf ∧ T.slices.map (fun s => (s.lb, s.ub)) = l := by
  obtain ⟨hn, cs, g1, g2, g3, hT⟩ := capd_comp ht hdt h
  refine ⟨hn, cs.map fun c => (c.lb, c.ub), ?_, ?_⟩
  · intro d hd
    obtain ⟨c, hc, rfl⟩ := List.mem_map.mp hd
    exact g3 c hc
  · intro T hm
    obtain ⟨i, hi⟩ := List.mem_iff_getElem?.mp hm
    have hb := fwd_capd_bounds sol i 0 none ⊤ cs
    rw [hT i T hi]
    refine ⟨⟨?_, ?_⟩, rfl, rfl, ?_⟩
    · intro hnil
      simp only at hnil
      rw [hnil] at hb
      exact g1 (List.map_eq_nil_iff.mp hb.symm)
    · exact (tiles_of_bounds hb.symm).mp g2
    · rw [Tube.slices_bounds]; exact hb

/-- the slices of a component: on each one the value of the curve, gates are the meets of the values around -/
theorem capd_slices {diam : K} {fuel n : Nat} {t0 tf dt : K} {sol : K → K → Nat → Itv K} {v : List (Tube K)} (ht : t0 < tf) (hdt : 0 < dt)
    (h : capdTube (· + ·) diam fuel n t0 tf dt sol = some v) :
    ∃ cs : List (Cell K), Tiles t0 cs tf ∧ ∀ (i : Nat) (T : Tube K), v[i]? = some T → ∀ j : Nat, T.slices[j]? = cs[j]?.map fun c => ⟨c.lb, c.ub, sol c.lb c.ub i,
        infOpt (sol c.lb c.ub i) (if j = 0 then none else cs[j - 1]?.map fun d => sol d.lb d.ub i),
        infOpt (sol c.lb c.ub i) (cs[j + 1]?.map fun d => sol d.lb d.ub i)⟩ := by
  obtain ⟨_, cs, _, g2, _, hT⟩ := capd_comp ht hdt h
  refine ⟨cs, g2, fun i T hi j => ?_⟩
  rw [hT i T hi]
  exact slices_capd sol i 0 none ⊤ cs j

/-- C133: the trajectories of the `i`-th component of the tube are exactly those which stay, on each slice and at its ends, in the value of the curve there -/
theorem C133_exact {diam : K} {fuel n : Nat} {t0 tf dt : K} {sol : K → K → Nat → Itv K} {v : List (Tube K)} (ht : t0 < tf) (hdt : 0 < dt)
    (h : capdTube (· + ·) diam fuel n t0 tf dt sol = some v) {i : Nat} {T : Tube K} (hi : v[i]? = some T) (f : K → K) :
    T.Encloses f ↔ ∀ s ∈ T.slices, ∀ t, s.lb ≤ t → t ≤ s.ub → f t ∈ sol s.lb s.ub i := by
  obtain ⟨cs, hti, hsl⟩ := capd_slices ht hdt h
  have hs := hsl i T hi
  constructor
  · intro he s hm t h1 h2
    obtain ⟨j, hj⟩ := List.mem_iff_getElem?.mp hm
    have hsj := hs j
    rw [hj] at hsj
    cases hc : cs[j]? with
    | none => rw [hc] at hsj; cases hsj
    | some c =>
      rw [hc] at hsj
      simp only [Option.map_some, Option.some.injEq] at hsj
      obtain ⟨e1, e2, e3⟩ := he s hm
      subst hsj
      rcases h1.eq_or_lt with rfl | h1
      · exact Itv.mem_of_le (infOpt_le _ _) e1
      rcases h2.eq_or_lt with rfl | h2
      · exact Itv.mem_of_le (infOpt_le _ _) e2
      exact e3 t h1 h2
  · intro he
    have cell : ∀ (j : Nat) (c : Cell K), cs[j]? = some c → c.lb < c.ub ∧ ∀ t, c.lb ≤ t → t ≤ c.ub → f t ∈ sol c.lb c.ub i := by
      intro j c hc
      refine ⟨(tiles_le hti (List.mem_of_getElem? hc)).2.1, ?_⟩
      have hsj := hs j
      rw [hc] at hsj
      exact he _ (List.mem_of_getElem? hsj)
    intro s hm
    obtain ⟨j, hj⟩ := List.mem_iff_getElem?.mp hm
    have hsj := hs j
    rw [hj] at hsj
    cases hc : cs[j]? with
    | none => rw [hc] at hsj; cases hsj
    | some c =>
      rw [hc] at hsj
      simp only [Option.map_some, Option.some.injEq] at hsj
      subst hsj
      obtain ⟨hlt, hcell⟩ := cell j c hc
      refine ⟨?_, ?_, fun t h1 h2 => hcell t h1.le h2.le⟩
      · rw [mem_infOpt]
        refine ⟨hcell _ le_rfl hlt.le, ?_⟩
        intro Y hY
        cases j with
        | zero => simp at hY
        | succ j =>
          simp only [if_neg (Nat.succ_ne_zero j), Nat.add_sub_cancel, Option.map_eq_some_iff] at hY
          obtain ⟨d, hd, rfl⟩ := hY
          obtain ⟨hlt', hcell'⟩ := cell j d hd
          have := tiles_next hti hd hc
          simp only
          rw [← this]
          exact hcell' _ hlt'.le le_rfl
      · rw [mem_infOpt]
        refine ⟨hcell _ hlt.le le_rfl, ?_⟩
        intro Y hY
        rw [Option.map_eq_some_iff] at hY
        obtain ⟨d, hd, rfl⟩ := hY
        obtain ⟨hlt', hcell'⟩ := cell (j + 1) d hd
        have := tiles_next hti hc hd
        simp only
        rw [this]
        exact hcell' _ le_rfl hlt'.le

/-- C133: every motion enclosed by the curve lies in the tube -/
theorem C133_encloses {diam : K} {fuel n : Nat} {t0 tf dt : K} {sol : K → K → Nat → Itv K} {v : List (Tube K)} (ht : t0 < tf) (hdt : 0 < dt)
    (h : capdTube (· + ·) diam fuel n t0 tf dt sol = some v) {x : K → Nat → K} (hx : CurveHas t0 tf sol x) {i : Nat} {T : Tube K} (hi : v[i]? = some T) :
    T.Encloses fun t => x t i := by
  rw [C133_exact ht hdt h hi]
  obtain ⟨cs, hti, hsl⟩ := capd_slices ht hdt h
  intro s hm t h1 h2
  obtain ⟨j, hj⟩ := List.mem_iff_getElem?.mp hm
  have hsj := hsl i T hi j
  rw [hj] at hsj
  cases hc : cs[j]? with
  | none => rw [hc] at hsj; cases hsj
  | some c =>
    rw [hc] at hsj
    simp only [Option.map_some, Option.some.injEq] at hsj
    subst hsj
    obtain ⟨k1, k2, k3⟩ := tiles_le hti (List.mem_of_getElem? hc)
    exact hx _ _ i t k1 k2 k3 h1 h2

/-- C133: the gate between two slices is the meet of the values of the curve on both -/
theorem C133_gates {diam : K} {fuel n : Nat} {t0 tf dt : K} {sol : K → K → Nat → Itv K} {v : List (Tube K)} (ht : t0 < tf) (hdt : 0 < dt)
    (h : capdTube (· + ·) diam fuel n t0 tf dt sol = some v) {i : Nat} {T : Tube K} (hi : v[i]? = some T) {j : Nat} {s s' : Slice K}
    (hs : T.slices[j]? = some s) (hs' : T.slices[j + 1]? = some s') :
    s.outG = sol s.lb s.ub i ⊓ sol s'.lb s'.ub i ∧ s'.inG = s.outG := by
  obtain ⟨cs, hti, hsl⟩ := capd_slices ht hdt h
  have e := hsl i T hi j
  have e' := hsl i T hi (j + 1)
  rw [hs] at e
  rw [hs'] at e'
  cases hc : cs[j]? with
  | none => rw [hc] at e; cases e
  | some c =>
    cases hc' : cs[j + 1]? with
    | none => rw [hc'] at e'; cases e'
    | some c' =>
      rw [hc] at e
      rw [hc'] at e'
      simp only [Option.map_some, Option.some.injEq, if_neg (Nat.succ_ne_zero j), Nat.add_sub_cancel, hc, hc'] at e e'
      subst e
      subst e'
      exact ⟨rfl, by simp only [infOpt, inf_comm]⟩

/-- C133: the construction ends -/
theorem C133_ends [Archimedean K] (diam : K) (n : Nat) (t0 tf : K) {dt : K} (hdt : 0 < dt) (sol : K → K → Nat → Itv K) :
    ∃ fuel v, capdTube (· + ·) diam fuel n t0 tf dt sol = some v := by
  obtain ⟨m, cs, hm⟩ := buildCells_total (tf := tf) hdt t0
  refine ⟨m, _, by simp only [capdTube, Tube.ofStep, if_neg hdt.ne', if_true, hm, Option.map_some]; rfl⟩

/-! ## what does not hold, and a concrete case -/

/-- enclosures of the motion `x(t) = t` -/
def idCurve (a b : ℚ) (_ : Nat) : Itv ℚ := Itv.icc a b

theorem idCurve_has : CurveHas (0 : ℚ) 2 idCurve fun t _ => t := fun _ _ _ _ _ _ _ h1 h2 => Itv.mem_icc.mpr ⟨h1, h2⟩

/-- C133: the initial condition is lost: for the motions of `x' = 1` from `x(0) = 0`, whose curve is exact, the tube at the time 0 is `[0,1]` (the value on the
first slice) and not 0, and at the end `[1,2]` and not 2 -/
theorem C133_initial_fails : ∃ T : Tube ℚ, capdTube (· + ·) 2 5 1 0 2 1 idCurve = some [T] ∧ T.g0 = Itv.icc 0 1 ∧
    T.slices.map Slice.outG = [Itv.icc 1 1, Itv.icc 1 2] ∧ T.Encloses fun t => if t = 0 then 1 else t := by
  have h : capdTube (· + ·) 2 5 1 0 2 1 idCurve = some [⟨0, 2, Itv.icc 0 1, [⟨0, 1, Itv.icc 0 1, Itv.icc 1 1⟩, ⟨1, 2, Itv.icc 1 2, Itv.icc 1 2⟩]⟩] := by decide +kernel
  refine ⟨_, h, rfl, rfl, ?_⟩
  intro s hs
  simp only [Tube.slices, slicesFrom_cons, slicesFrom_nil, List.mem_cons, List.not_mem_nil, or_false] at hs
  rcases hs with rfl | rfl
  · refine ⟨by decide +kernel, by decide +kernel, fun t h1 h2 => ?_⟩
    simp only at h1 h2 ⊢
    rw [if_neg h1.ne']
    exact Itv.mem_icc.mpr ⟨h1.le, h2.le⟩
  · refine ⟨by decide +kernel, by decide +kernel, fun t h1 h2 => ?_⟩
    simp only at h1 h2 ⊢
    rw [if_neg (by intro h0; rw [h0] at h1; exact absurd h1 (by decide +kernel))]
    exact Itv.mem_icc.mpr ⟨h1.le, h2.le⟩

example : ∃ T : Tube ℚ, capdTube (· + ·) 2 5 1 0 2 (3 / 2) idCurve = some [T] ∧ T.Encloses (fun t => t) ∧ T.nbSlices = 2 := by
  have h : capdTube (· + ·) 2 5 1 0 2 (3 / 2) idCurve =
      some [⟨0, 2, Itv.icc 0 (3 / 2), [⟨0, 3 / 2, Itv.icc 0 (3 / 2), Itv.icc (3 / 2) (3 / 2)⟩, ⟨3 / 2, 2, Itv.icc (3 / 2) 2, Itv.icc (3 / 2) 2⟩]⟩] := by decide +kernel
  exact ⟨_, h, C133_encloses (by decide +kernel) (by decide +kernel) h idCurve_has (i := 0) rfl, rfl⟩

end Codac.Props
