import Verif.Serialize.RoundTrip

/-!
# C16, C17: binary files

`C` is the memory representation of the doubles: any map to 8 bytes from which the number is found back; `ieee` is the IEEE-754 one.
`getTube C bytes = some (T, rest)`: the reader has found the tube `T` and the next byte to be read is the first of `rest`.
-/

namespace Codac.Props
open Codac Codac.Ser

variable {K : Type} [LinearOrder K] [Zero K] (C : Codec K)

/-- two doubles, for the examples: 0 and 1.0 (`0x3FF0000000000000`), 2.0, -2.0 -/
def one64 : Double := ⟨0x3FF0000000000000, by decide⟩
def two64 : Double := ⟨0x4000000000000000, by decide⟩
def minusTwo64 : Double := ⟨-0x4000000000000000, by decide⟩

/-- the IEEE-754 representation is a possible one, the order of the model is the order of the numbers -/
example : StrictMono Double.value ∧ one64.value = 2 ^ 1074 ∧ minusTwo64.value = -2 ^ 1075 :=
  ⟨Double.value_strictMono, by decide +kernel, by decide +kernel⟩
example : ieee.enc (.fin one64) = [0, 0, 0, 0, 0, 0, 0xF0, 0x3F] := by decide +kernel
example : ieee.enc (.fin minusTwo64) = [0, 0, 0, 0, 0, 0, 0, 0xC0] := by decide +kernel

/-! ### Tubes -/

/-- a tube of two slices with distinct envelopes and gates -/
def fileTube : Tube Double :=
  ⟨0, two64, Itv.point 0, [⟨0, one64, Itv.ofBounds (some minusTwo64) none, Itv.icc 0 one64⟩, ⟨one64, two64, Itv.icc 0 two64, Itv.point two64⟩]⟩

/-- C16: a consistent tube is found back, whatever follows it in the file, and what follows is left to be read -/
theorem C16_roundtrip {T : Tube K} (hT : T.WF) (hg : T.GatesInEnvelopes) (hn : T.nbSlices < 2 ^ 31) (rest : List UInt8) :
    getTube C (putTube C T ++ rest) = some (T, rest) := rt_tube C hT hg hn rest

/-- hypotheses of `C16_roundtrip`, and the size of the file -/
example : fileTube.WF ∧ fileTube.GatesInEnvelopes ∧ (putTube ieee fileTube).length = 130 :=
  ⟨⟨by decide, by refine ⟨rfl, ?_, rfl, ?_, rfl⟩ <;> decide +kernel⟩,
    by intro s hs; revert s; decide +kernel, by decide +kernel⟩

/-- C16: the same for a vector of tubes -/
theorem C16_vector {Ts : List (Tube K)} (h : Ts.length < 2 ^ 15)
    (hT : ∀ T ∈ Ts, T.WF ∧ T.GatesInEnvelopes ∧ T.nbSlices < 2 ^ 31) (rest : List UInt8) :
    getTubes C (putTubes C Ts ++ rest) = some (Ts, rest) := rt_tubes C h hT rest

/-- C16: a file made of a tube, or of a tube and a trajectory, gives the tube and the trajectory, or none -/
theorem C16_file {T : Tube K} (hT : T.WF) (hg : T.GatesInEnvelopes) (hn : T.nbSlices < 2 ^ 31) (x : Option (Traj K))
    (hx : ∀ y ∈ x, SortedPts y.pts ∧ IsHull y.dom (y.pts.map Prod.fst) ∧ IsHull y.cod (y.pts.map Prod.snd) ∧
      y.pts.length < 2 ^ 31) :
    readTubeFile C (tubeFile C T x) = some (T, x) := by
  cases x with
  | none =>
    have := rt_tube C hT hg hn []
    rw [List.append_nil] at this
    simp [readTubeFile, tubeFile, this]
  | some y =>
    obtain ⟨h1, h2, h3, h4⟩ := hx y rfl
    have := rt_tube C hT hg hn (0 :: putTraj C y)
    have h5 := rt_traj_eq C h1 h2 h3 h4 []
    rw [List.append_nil] at h5
    simp [readTubeFile, tubeFile, this, h5]

/-- C16: two different consistent tubes are never written as the same file -/
theorem C16_injective {T T' : Tube K} (hT : T.WF) (hg : T.GatesInEnvelopes) (hn : T.nbSlices < 2 ^ 31) (hT' : T'.WF)
    (hg' : T'.GatesInEnvelopes) (hn' : T'.nbSlices < 2 ^ 31) (h : putTube C T = putTube C T') : T = T' := by
  have h1 := rt_tube C hT hg hn []
  have h2 := rt_tube C hT' hg' hn' []
  rw [h, h2, Option.some.injEq, Prod.mk.injEq] at h1
  exact h1.1.symm

/-- C16: whatever the bytes, a tube that is read without error has at least one slice, its slices tile its temporal domain and each of
its gates is in the envelopes around it -/
theorem C16_read_consistent {bytes rest : List UInt8} {T : Tube K} (h : getTube C bytes = some (T, rest)) :
    T.WF ∧ T.GatesInEnvelopes := getTube_inv C h

/-- a file of arbitrary origin that is read: gates that exceed the envelopes -/
example : ((getTube ieee (putTube ieee ⟨0, one64, ⊤, [⟨0, one64, Itv.icc 0 one64, ⊤⟩]⟩)).map fun r => r.1.cells) =
    some [⟨0, one64, Itv.icc 0 one64, Itv.icc 0 one64⟩] := by decide +kernel

/-- C16, any tube: the slicing and the envelopes are found back, each gate is intersected with the envelopes around it -/
theorem C16_any_gates {T : Tube K} (hT : T.WF) (hn : T.nbSlices < 2 ^ 31) (rest : List UInt8) :
    ∃ T', getTube C (putTube C T ++ rest) = some (T', rest) ∧ T'.t0 = T.t0 ∧ T'.tf = T.tf ∧
      (T'.slices.map fun s => (s.lb, s.ub, s.cod)) = (T.slices.map fun s => (s.lb, s.ub, s.cod)) ∧
      (∀ s, T.slices[0]? = some s → T'.g0 = T.g0 ⊓ s.cod) ∧
      ∀ i s s', T.slices[i]? = some s → T'.slices[i]? = some s' →
        ∀ v, v ∈ s'.outG ↔ v ∈ s.outG ∧ v ∈ s.cod ∧ ∀ n, T.slices[i + 1]? = some n → v ∈ n.cod := by
  refine ⟨clip T, rt_tube_clip C hT hn rest, rfl, rfl, ?_, ?_, ?_⟩
  · have key : ∀ (cs : List (Cell K)) (g : Itv K), (slicesFrom g cs).map (fun s => (s.lb, s.ub, s.cod)) =
        cs.map fun c => (c.lb, c.ub, c.cod) := by
      intro cs
      induction cs with
      | nil => intro g; rfl
      | cons c cs ih => intro g; simp [ih]
    rw [Tube.slices, Tube.slices, key, key]
    apply List.ext_getElem?
    intro i
    simp only [List.getElem?_map, clip, clipCells_getElem?, Option.map_map]
    rfl
  · intro s hs
    rw [Tube.slices] at hs
    cases hc : T.cells with
    | nil => rw [hc] at hs; simp at hs
    | cons c cs =>
      rw [hc] at hs
      simp only [slicesFrom_cons, List.getElem?_cons_zero, Option.some.injEq] at hs
      subst hs
      simp [clip, hc, infOpt]
  · intro i s s' h h' v
    have out : ∀ (cs : List (Cell K)) (g : Itv K) (j : Nat), (slicesFrom g cs)[j]?.map Slice.outG = cs[j]?.map Cell.out := by
      intro cs g j; rw [← List.getElem?_map, slices_out, List.getElem?_map]
    have cod : ∀ (cs : List (Cell K)) (g : Itv K) (j : Nat), (slicesFrom g cs)[j]?.map Slice.cod = cs[j]?.map Cell.cod := by
      intro cs g j; rw [← List.getElem?_map, slices_cod, List.getElem?_map]
    have e' := out (clip T).cells (clip T).g0 i
    have e1 := out T.cells T.g0 i
    have e2 := cod T.cells T.g0 i
    have e3 := cod T.cells T.g0 (i + 1)
    change (clip T).slices[i]?.map _ = _ at e'
    change T.slices[i]?.map _ = _ at e1 e2
    change T.slices[i + 1]?.map _ = _ at e3
    rw [h'] at e'
    rw [h] at e1 e2
    simp only [clip, clipCells_getElem?, Option.map_map] at e'
    cases hc : T.cells[i]? with
    | none => rw [hc] at e1; cases e1
    | some c =>
      rw [hc] at e' e1 e2
      simp only [Option.map_some, Option.some.injEq, Function.comp_apply] at e' e1 e2
      rw [e', e1, e2, ← e3]
      cases hn : T.slices[i + 1]? with
      | none => simp [infOpt]
      | some n => simp [infOpt, and_assoc]

/-- C16 fails when a gate is not in the envelopes around it (for instance after `set_input_gate(gate, false)`): another tube is read -/
theorem C16_gates_fails : ∃ T : Tube Double, T.WF ∧ T.nbSlices < 2 ^ 31 ∧
    ∃ T', getTube ieee (putTube ieee T) = some (T', []) ∧ T' ≠ T := by
  refine ⟨⟨0, one64, Itv.point two64, [⟨0, one64, Itv.icc 0 one64, Itv.point 0⟩]⟩, ⟨by decide, rfl, by decide +kernel, rfl⟩, by decide,
    ⟨0, one64, ⊥, [⟨0, one64, Itv.icc 0 one64, Itv.point 0⟩]⟩, by decide +kernel, by decide +kernel⟩

/-! ### Intervals and boxes -/

/-- C17: an interval (empty, bounded, half-bounded or unbounded) is found back, what follows is left to be read -/
theorem C17_interval (X : Itv K) (rest : List UInt8) : getItv C (putItv C X ++ rest) = some (X, rest) := rt_itv C X rest

example : putItv ieee (Itv.icc 0 one64) = [0, 0, 0, 0] ++ ([0, 0, 0, 0, 0, 0, 0, 0] ++ [0, 0, 0, 0, 0, 0, 0xF0, 0x3F]) ∧
    putItv ieee (Itv.ofBounds (some one64) none) = [0, 0, 0, 0] ++ ([0, 0, 0, 0, 0, 0, 0xF0, 0x3F] ++ [0, 0, 0, 0, 0, 0, 0xF0, 0x7F]) ∧
    putItv ieee ⊤ = [2, 0, 0, 0] := by decide +kernel

/-- C17: the same for a box of dimension between 1 and 2^15 - 1 -/
theorem C17_box (B : List (Itv K)) (h1 : 1 ≤ B.length) (h2 : B.length < 2 ^ 15) (rest : List UInt8) :
    getBox C (putBox C B ++ rest) = some (B, rest) := rt_box C B h1 h2 rest

/-- C17: the limit on the dimension is needed. A box of dimension 2^16 + n is read as the box of its n first components -/
theorem C17_large_box_fails (B : List (Itv K)) (n : Nat) (h1 : 1 ≤ n) (h2 : n < 2 ^ 15) (h : B.length = 2 ^ 16 + n)
    (rest : List UInt8) : getBox C (putBox C B ++ rest) = some (B.take n, rest) ∧ B.take n ≠ B := by
  have e : signed 2 B.length = n := by
    unfold signed
    rw [h]
    have : (2 ^ 16 + n) % 256 ^ 2 = n := by norm_num; omega
    rw [this, if_pos (by norm_num; omega)]
  have := rt_box_take C B (by rw [e]; exact_mod_cast h1) rest
  rw [e] at this
  refine ⟨by simpa using this, fun hc => ?_⟩
  have := congrArg List.length hc
  rw [List.length_take] at this
  omega

example : (List.replicate (2 ^ 16 + 3) (⊤ : Itv Double)).length = 2 ^ 16 + 3 := List.length_replicate

/-! ### Trajectories -/

/-- C17: a trajectory whose domains are the hulls of its instants and of its values (see C36) is found back -/
theorem C17_trajectory_partial {x : Traj K} (h1 : SortedPts x.pts) (h2 : IsHull x.dom (x.pts.map Prod.fst))
    (h3 : IsHull x.cod (x.pts.map Prod.snd)) (hn : x.pts.length < 2 ^ 31) (rest : List UInt8) :
    getTraj C (putTraj C x ++ rest) = some (x, rest) := rt_traj_eq C h1 h2 h3 hn rest

/-- C17: in any case the points are found back, and the domains are the hulls of the instants and of the values -/
theorem C17_trajectory_points {x : Traj K} (h1 : SortedPts x.pts) (hn : x.pts.length < 2 ^ 31) (rest : List UInt8) :
    ∃ x', getTraj C (putTraj C x ++ rest) = some (x', rest) ∧ x'.pts = x.pts ∧ IsHull x'.dom (x.pts.map Prod.fst) ∧
      IsHull x'.cod (x.pts.map Prod.snd) := by
  refine ⟨_, rt_traj C x hn rest, ?_⟩
  unfold ofPts
  rw [ofPts_sorted h1]
  exact ⟨rfl, isHull_hullOf _, isHull_hullOf _⟩

/-- C17: the same for a vector of trajectories -/
theorem C17_trajectories_partial {xs : List (Traj K)} (h : xs.length < 2 ^ 15)
    (hx : ∀ x ∈ xs, SortedPts x.pts ∧ IsHull x.dom (x.pts.map Prod.fst) ∧ IsHull x.cod (x.pts.map Prod.snd) ∧
      x.pts.length < 2 ^ 31) (rest : List UInt8) :
    getTrajs C (putTrajs C xs ++ rest) = some (xs, rest) := rt_trajs C h hx rest

/-- hypotheses of the trajectory theorems -/
example : SortedPts [((0 : Double), one64), (one64, minusTwo64)] ∧
    IsHull (Itv.icc 0 one64) [(0 : Double), one64] ∧ IsHull (Itv.icc minusTwo64 one64) [one64, minusTwo64] :=
  ⟨by unfold SortedPts; decide +kernel,
   by have h := isHull_hullOf [(0 : Double), one64]
      rwa [show hullOf [(0 : Double), one64] = Itv.icc 0 one64 by decide +kernel] at h,
   by have h := isHull_hullOf [one64, minusTwo64]
      rwa [show hullOf [one64, minusTwo64] = Itv.icc minusTwo64 one64 by decide +kernel] at h⟩

/-- C17 fails for `Trajectory(list_t, list_x)`, whose codomain is left empty: another codomain is read -/
theorem C17_from_lists_fails : ∃ x : Traj Double, x = Traj.ofLists [0, one64] [one64, two64] ∧ x.cod = ⊥ ∧
    (getTraj ieee (putTraj ieee x)).map (fun r => r.1.cod) = some (Itv.icc one64 two64) :=
  ⟨_, rfl, by decide +kernel, by decide +kernel⟩

end Codac.Props
