import Verif.Ctc.Static
import Verif.Tube.Examples

/-!
# C21: `CtcStatic` lifts a box contractor to tubes

`valueAt tmp fs t` is the vector of the values at `t`, preceded by `t` in temporal mode. `KeepsPts S ctc`: the box contractor
loses no point of `S`.
-/

set_option linter.unusedSectionVars false

namespace Codac.Props
open Codac Codac.Ex

section
variable {K : Type*} [LinearOrder K]

theorem staticContract_eq_some {R : Itv K} {tmp : Bool} {ctc : List (Itv K) → List (Itv K)} {xs ys : List (Tube K)}
    (h : staticContract R tmp ctc xs = some ys) :
    ∃ x ∈ xs, (∀ T ∈ xs, T.cells.map (fun c => (c.lb, c.ub)) = x.cells.map fun c => (c.lb, c.ub)) ∧
      ys = staticLoop R tmp ctc 0 (x.cells.map fun c => (c.lb, c.ub)) xs := by
  cases xs with
  | nil => cases h
  | cons x l =>
    unfold staticContract at h
    dsimp only at h
    split_ifs at h with hc
    cases h
    refine ⟨x, by simp, ?_, by rw [Tube.slices_bounds]⟩
    intro T hT
    rcases List.mem_cons.mp hT with rfl | hT
    · rfl
    · rw [List.all_eq_true] at hc
      exact (sameSlicing_iff.mp (hc T hT)).symm

/-- **C21**: with or without time as first variable, for any restricted time domain, every vector trajectory of the tubes whose
value is in `S` at all times is still in the tubes. -/
theorem C21_static_sound {S : List K → Prop} {R : Itv K} {tmp : Bool} {ctc : List (Itv K) → List (Itv K)}
    (hc : KeepsPts S ctc) {xs ys : List (Tube K)} (h : staticContract R tmp ctc xs = some ys) {fs : List (K → K)}
    (hx : List.Forall₂ (fun T f => T.WF ∧ T.GatesInEnvelopes ∧ T.Encloses f) xs fs)
    (hS : ∀ T ∈ xs, ∀ t, T.t0 ≤ t → t ≤ T.tf → S (valueAt tmp fs t)) :
    List.Forall₂ (fun T f => T.WF ∧ T.GatesInEnvelopes ∧ T.Encloses f) ys fs := by
  obtain ⟨x, hxm, hb, rfl⟩ := staticContract_eq_some h
  have hwf : x.WF := by
    have : ∀ {xs : List (Tube K)} {fs : List (K → K)}, List.Forall₂ (fun T f => T.WF ∧ T.GatesInEnvelopes ∧ T.Encloses f) xs fs →
        ∀ T ∈ xs, T.WF := by
      intro xs fs h
      induction h with
      | nil => simp
      | cons a _ ih =>
        intro T hT
        rcases List.mem_cons.mp hT with rfl | hT
        · exact a.1
        · exact ih T hT
    exact this hx x hxm
  have hbd : ∀ b ∈ x.cells.map (fun c => (c.lb, c.ub)), x.t0 ≤ b.1 ∧ b.1 < b.2 ∧ b.2 ≤ x.tf := by
    intro b hb'
    rw [← Tube.slices_bounds, List.mem_map] at hb'
    obtain ⟨s, hs, rfl⟩ := hb'
    exact hwf.tiles.mem_bounds hs
  have key := staticLoop_inv (R := R) (tmp := tmp) hc (fs := fs) (x.cells.map fun c => (c.lb, c.ub)) 0 rfl (xs := xs)
    (fun b hb' => (hbd b hb').2.1)
    (fun b hb' t h1 h2 => hS x hxm t (le_trans (hbd b hb').1 h1) (le_trans h2 (hbd b hb').2.2))
    (by
      clear h hxm hS
      induction hx with
      | nil => exact .nil
      | cons a _ ih => exact .cons ⟨a.1, a.2.1, a.2.2, hb _ (by simp)⟩ (ih fun T hT => hb T (by simp [hT])))
  exact key.imp fun T f h => ⟨h.wf, h.gc, h.encl⟩

/-- **C21**: with a contracting box contractor, the tubes only shrink (same slices, envelopes and gates included). -/
theorem C21_static_contracts {R : Itv K} {tmp : Bool} {ctc : List (Itv K) → List (Itv K)} (hc : ∀ X, BoxLe (ctc X) X)
    {xs ys : List (Tube K)} (h : staticContract R tmp ctc xs = some ys) : AllBelow ys xs := by
  obtain ⟨x, hxm, hb, rfl⟩ := staticContract_eq_some h
  exact staticLoop_below hc 0 _ xs

/-- **C21**, exact effect on the envelopes: on a slice meeting the restricted time domain they become those of the contracted
box, with the slice's time domain in temporal mode; on the other slices they are unchanged. -/
theorem C21_static_envelopes {R : Itv K} {tmp : Bool} {ctc : List (Itv K) → List (Itv K)}
    (hl : ∀ X, (ctc X).length = X.length) {xs ys : List (Tube K)} (h : staticContract R tmp ctc xs = some ys) {x : Tube K}
    (hx : x ∈ xs) {k : Nat} {s : Slice K} (hs : x.slices[k]? = some s) :
    ys.map (fun T => T.codAt k) =
      if (Itv.icc s.lb s.ub).intersects R then dropTime tmp (ctc (withTime tmp (Itv.icc s.lb s.ub) (xs.map fun T => T.codAt k)))
      else xs.map fun T => T.codAt k := by
  obtain ⟨x0, hx0, hb, rfl⟩ := staticContract_eq_some h
  refine (staticLoop_codAt hl (x0.cells.map fun c => (c.lb, c.ub)) 0 rfl hb k).2 (Nat.zero_le _) (s.lb, s.ub) ?_
  rw [← hb x hx, ← Tube.slices_bounds, List.getElem?_map, hs]
  rfl

/-- **C21**, effect on the gates: with a contracting and monotone box contractor, on a slice meeting the restricted time domain
the input gates (and the output gates of the last slice) are in the contracted box of the initial gates, with the instant of
the gate in temporal mode. -/
theorem C21_static_gates {R : Itv K} {tmp : Bool} {ctc : List (Itv K) → List (Itv K)} (hc : ∀ X, BoxLe (ctc X) X)
    (hm : ∀ X Y, BoxLe X Y → BoxLe (ctc X) (ctc Y)) {xs ys : List (Tube K)} (h : staticContract R tmp ctc xs = some ys)
    {x : Tube K} (hx : x ∈ xs) {k : Nat} {s : Slice K} (hs : x.slices[k]? = some s)
    (hR : (Itv.icc s.lb s.ub).intersects R = true) :
    BoxLe (ys.map fun T => T.inGAt k) (dropTime tmp (ctc (withTime tmp (Itv.point s.lb) (xs.map fun T => T.inGAt k)))) ∧
    (k + 1 = x.slices.length →
      BoxLe (ys.map fun T => T.outGAt k) (dropTime tmp (ctc (withTime tmp (Itv.point s.ub) (xs.map fun T => T.outGAt k))))) := by
  obtain ⟨x0, hx0, hb, rfl⟩ := staticContract_eq_some h
  have hbk : (x0.cells.map fun c => (c.lb, c.ub))[k]? = some (s.lb, s.ub) := by
    rw [← hb x hx, ← Tube.slices_bounds, List.getElem?_map, hs]
    rfl
  have := staticLoop_gates (R := R) (tmp := tmp) hc hm (x0.cells.map fun c => (c.lb, c.ub)) 0 rfl (AllBelow.refl xs) hb k
    (Nat.zero_le _) hbk hR
  refine ⟨this.1, fun he => this.2 ?_⟩
  rw [he, ← hb x hx, ← Tube.slices_bounds, List.length_map]

end

/-! ### Concrete cases -/

/-- contractor for `v ∈ [0,2]^n` -/
def capBox (X : List (Itv ℚ)) : List (Itv ℚ) := X.map (· ⊓ I 0 2)

theorem capBox_keeps : KeepsPts (fun v => ∀ a ∈ v, a ∈ I 0 2) capBox := by
  intro X v h hv
  unfold capBox InBox at *
  induction h with
  | nil => exact .nil
  | cons a _ ih =>
    refine .cons ?_ (ih fun a ha => hv a (by simp [ha]))
    rw [Itv.mem_inf]
    exact ⟨a, hv _ (by simp)⟩

theorem capBox_le (X : List (Itv ℚ)) : BoxLe (capBox X) X := by
  unfold capBox BoxLe
  induction X with
  | nil => exact .nil
  | cons a _ ih => exact .cons inf_le_left ih

/-- the tube of the constant trajectory 1, same slices as `Ex.T` -/
def staticX : Tube ℚ where
  t0 := 0
  tf := 4
  g0 := I 1 4
  cells := [⟨0, 1, I (-1) 5, I 1 4⟩, ⟨1, 2, I 0 4, I 1 3⟩, ⟨2, 4, I 1 3, I 1 3⟩]

/-- hypotheses of `C21_static_sound` met by two tubes, and the contraction is effective -/
example : (staticContract ⊤ false capBox [staticX, staticX]).map (fun ys => ys.map fun T => T.codAt 0) =
    some [I 0 2, I 0 2] := by decide +kernel

/-- in temporal mode with a restricted time domain only the slices meeting it are contracted -/
example : (staticContract (I 0 (1/2)) true (fun X => X.map (· ⊓ I 0 2)) [staticX]).map (fun ys => ys.map fun T => (T.codAt 0, T.codAt 1)) =
    some [(I 0 2, I 0 4)] := by decide +kernel

example : List.Forall₂ (fun (T : Tube ℚ) f => T.WF ∧ T.GatesInEnvelopes ∧ T.Encloses f) [staticX] [fun _ => (1 : ℚ)] := by
  refine .cons ⟨⟨by simp [staticX], by simp [staticX, Tiles]; norm_num⟩, ?_, ?_⟩ .nil
  · intro s hs
    have : s = ⟨0, 1, I (-1) 5, I 1 4, I 1 4⟩ ∨ s = ⟨1, 2, I 0 4, I 1 4, I 1 3⟩ ∨ s = ⟨2, 4, I 1 3, I 1 3, I 1 3⟩ := by
      simpa [staticX, Tube.slices, slicesFrom] using hs
    rcases this with rfl | rfl | rfl <;> decide +kernel
  · intro s hs
    have : s = ⟨0, 1, I (-1) 5, I 1 4, I 1 4⟩ ∨ s = ⟨1, 2, I 0 4, I 1 4, I 1 3⟩ ∨ s = ⟨2, 4, I 1 3, I 1 3, I 1 3⟩ := by
      simpa [staticX, Tube.slices, slicesFrom] using hs
    rcases this with rfl | rfl | rfl <;> refine ⟨by decide +kernel, by decide +kernel, fun t _ _ => by dsimp only; decide +kernel⟩

/-- the identity on `[0,4]`, in one slice -/
def staticY : Tube ℚ := ⟨0, 4, I 0 4, [⟨0, 4, I 0 4, I 0 4⟩]⟩

/-- **C21**, restricted time domain: the contraction is not limited to the restricted time domain. The identity satisfies the
constraint `x(t) ∈ [0,2]` on the whole restricted time domain `[0,1]`, but it is lost: the slice `[0,4]`, which meets the
domain, is contracted as a whole (a comment of the code, lines 161-163, leaves this for later). -/
theorem C21_restricted_domain_fails :
    KeepsPts (fun v => ∀ a ∈ v, a ∈ I 0 2) capBox ∧ staticY.Encloses (fun t => t) ∧
    (∀ t, t ∈ I 0 1 → ∀ a ∈ valueAt false [fun t : ℚ => t] t, a ∈ I 0 2) ∧
    ∃ y, staticContract (I 0 1) false capBox [staticY] = some [y] ∧ ¬ y.Encloses (fun t => t) := by
  refine ⟨capBox_keeps, ?_, ?_, ⟨0, 4, I 0 2, [⟨0, 4, I 0 2, I 0 2⟩]⟩, by decide +kernel, ?_⟩
  · intro s hs
    have : s = ⟨0, 4, I 0 4, I 0 4, I 0 4⟩ := by simpa [staticY, Tube.slices, slicesFrom] using hs
    subst this
    refine ⟨by decide +kernel, by decide +kernel, fun t h1 h2 => ?_⟩
    rw [Itv.mem_icc]; exact ⟨h1.le, h2.le⟩
  · intro t ht a ha
    simp only [valueAt, Bool.false_eq_true, if_false, List.map_cons, List.map_nil, List.mem_singleton] at ha
    subst ha
    rw [Itv.mem_icc] at *
    constructor <;> linarith [ht.1, ht.2]
  · intro h
    have := (h ⟨0, 4, I 0 2, I 0 2, I 0 2⟩ (by simp [Tube.slices, slicesFrom])).2.1
    revert this
    decide +kernel

end Codac.Props
