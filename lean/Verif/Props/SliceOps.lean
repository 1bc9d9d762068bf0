import Verif.Tube.SliceOps
import Verif.Arith
import Mathlib.Data.Rat.Floor

/-!
# C138 — operators of slices
-/

set_option linter.unusedSectionVars false

namespace Codac.Props
open Codac.SliceOps

variable {K : Type*} [LinearOrder K]

/-- `φ` encloses the operation `op` -/
def EnclosesOp (φ : Itv K → Itv K → Itv K) (op : K → K → K) : Prop := ∀ A B a b, a ∈ A → b ∈ B → op a b ∈ φ A B

/-- C138: the result of an operator with a slice of the same time domain contains all combinations of trajectories of the two slices -/
theorem C138_slice {φ : Itv K → Itv K → Itv K} {op : K → K → K} (hφ : EnclosesOp φ op) {s x : Slice K} (h1 : x.lb = s.lb) (h2 : x.ub = s.ub) (p n : Option (Itv K))
    {f g : K → K} (hf : s.Encloses f) (hg : x.Encloses g) : (opSlice φ x p n s).Encloses fun t => op (f t) (g t) := by
  obtain ⟨f1, f2, f3⟩ := hf
  obtain ⟨g1, g2, g3⟩ := hg
  rw [h1] at g1 g3
  rw [h2] at g2 g3
  exact ⟨hφ _ _ _ _ f1 g1, hφ _ _ _ _ f2 g2, fun t k1 k2 => hφ _ _ _ _ (f3 t k1 k2) (g3 t k1 k2)⟩

/-- C138: the same with a number -/
theorem C138_scalar {φ : Itv K → Itv K → Itv K} {op : K → K → K} (hφ : EnclosesOp φ op) {s : Slice K} (x : K) (p n : Option (Itv K))
    {f : K → K} (hf : s.Encloses f) : (opScalar φ x p n s).Encloses fun t => op (f t) x := by
  obtain ⟨f1, f2, f3⟩ := hf
  have hx : x ∈ Itv.point x := Itv.mem_point.mpr rfl
  exact ⟨hφ _ _ _ _ f1 hx, hφ _ _ _ _ f2 hx, fun t k1 k2 => hφ _ _ _ _ (f3 t k1 k2) hx⟩

/-- C138: the same with a trajectory, whose evaluation on an interval contains its values -/
theorem C138_traj {φ : Itv K → Itv K → Itv K} {op : K → K → K} (hφ : EnclosesOp φ op) {s : Slice K} {ev : Itv K → Itv K} {g : K → K}
    (hev : ∀ I t, t ∈ I → g t ∈ ev I) (p n : Option (Itv K)) {f : K → K} (hf : s.Encloses f) : (opTraj φ ev p n s).Encloses fun t => op (f t) (g t) := by
  obtain ⟨f1, f2, f3⟩ := hf
  exact ⟨hφ _ _ _ _ f1 (hev _ _ (Itv.mem_point.mpr rfl)), hφ _ _ _ _ f2 (hev _ _ (Itv.mem_point.mpr rfl)),
    fun t k1 k2 => hφ _ _ _ _ (f3 t k1 k2) (hev _ _ (Itv.mem_icc.mpr ⟨le_of_lt k1, le_of_lt k2⟩))⟩

/-- C138: `&=` keeps exactly the trajectories of both slices -/
theorem C138_meet {s x : Slice K} (h1 : x.lb = s.lb) (h2 : x.ub = s.ub) (p n : Option (Itv K)) (f : K → K) :
    (opSlice (· ⊓ ·) x p n s).Encloses f ↔ s.Encloses f ∧ x.Encloses f := by
  have e : (opSlice (· ⊓ ·) x p n s).Encloses f ↔ f s.lb ∈ s.inG ⊓ x.inG ∧ f s.ub ∈ s.outG ⊓ x.outG ∧ ∀ t, s.lb < t → t < s.ub → f t ∈ s.cod ⊓ x.cod := Iff.rfl
  rw [e]
  unfold Slice.Encloses
  simp only [Itv.mem_inf, h1, h2]
  constructor
  · rintro ⟨a, b, c⟩
    exact ⟨⟨a.1, b.1, fun t k1 k2 => (c t k1 k2).1⟩, a.2, b.2, fun t k1 k2 => (c t k1 k2).2⟩
  · rintro ⟨⟨a, b, c⟩, a', b', c'⟩
    exact ⟨⟨a, a'⟩, ⟨b, b'⟩, fun t k1 k2 => ⟨c t k1 k2, c' t k1 k2⟩⟩

/-- C138: `|=` keeps the trajectories of each slice -/
theorem C138_join {s x : Slice K} (h1 : x.lb = s.lb) (h2 : x.ub = s.ub) (p n : Option (Itv K)) {f : K → K} (hf : s.Encloses f ∨ x.Encloses f) :
    (opSlice (· ⊔ ·) x p n s).Encloses f := by
  rcases hf with ⟨a, b, c⟩ | ⟨a, b, c⟩
  · exact ⟨Itv.mem_sup_left a, Itv.mem_sup_left b, fun t k1 k2 => Itv.mem_sup_left (c t k1 k2)⟩
  · rw [h1] at a c
    rw [h2] at b c
    exact ⟨Itv.mem_sup_right a, Itv.mem_sup_right b, fun t k1 k2 => Itv.mem_sup_right (c t k1 k2)⟩

theorem fwd_opSlice {φ : Itv K → Itv K → Itv K} (hφ : ∀ a b, φ (φ a b) b = φ a b) (xs : List (Slice K)) :
    ∀ (cs ds : List (Cell K)) (k : Nat) (p : Option (Itv K)) (g gx : Itv K), cs.length = ds.length → cs ≠ [] →
      (∀ i, xs[k + i]? = (slicesFrom gx ds)[i]?) →
      fwd (opAt φ xs) k p g cs = (φ g gx, zipCells φ cs cs ds) := by
  intro cs
  induction cs with
  | nil => intro ds k p g gx _ h; exact absurd rfl h
  | cons c cs ih =>
    intro ds k p g gx hl _ hx
    cases ds with
    | nil => simp at hl
    | cons d ds =>
      have h0 : xs[k]? = some ⟨d.lb, d.ub, d.cod, gx, d.out⟩ := by
        have := hx 0
        rwa [Nat.add_zero, slicesFrom_cons] at this
      have hs : ∀ i, xs[k + 1 + i]? = (slicesFrom d.out ds)[i]? := by
        intro i
        have := hx (i + 1)
        rw [slicesFrom_cons] at this
        rw [Nat.add_assoc, Nat.add_comm 1 i]
        exact this
      simp only [fwd, opAt, h0]
      cases cs with
      | nil =>
        have : ds = [] := List.length_eq_zero_iff.mp (by simpa using hl.symm)
        subst this
        rfl
      | cons c' cs' =>
        rw [ih ds (k + 1) _ _ d.out (by simpa using hl) (by simp) hs]
        show (φ g gx, Cell.mk c.lb c.ub (φ c.cod d.cod) (φ (φ c.out d.out) d.out) :: _) = _
        rw [hφ]
        rfl

/-- C138: for an operator whose repetition changes nothing (`&=`, `|=`), working slice by slice with the slices of a tube of the same slicing gives the operator of
tubes -/
theorem C138_pass_partial {φ : Itv K → Itv K → Itv K} (hφ : ∀ a b, φ (φ a b) b = φ a b) {T X : Tube K} (hT : T.WF) (hs : T.sameSlicing X = true) :
    passSlices φ T X = T.opAssign φ X := by
  have hl : T.cells.length = X.cells.length := by
    have := congrArg List.length (sameSlicing_iff.mp hs)
    simpa using this
  unfold passSlices Tube.opAssign
  rw [if_pos hs, foldl_upd_range (opAt φ X.slices),
    fwd_opSlice hφ X.slices T.cells X.cells 0 none T.g0 X.g0 hl hT.ne (fun i => by rw [Nat.zero_add]; rfl)]

/-- C138: the meet and the union are such operators -/
theorem C138_idempotent : (∀ a b : Itv K, (a ⊓ b) ⊓ b = a ⊓ b) ∧ ∀ a b : Itv K, (a ⊔ b) ⊔ b = a ⊔ b :=
  ⟨fun a b => by rw [inf_assoc, inf_idem], fun a b => by rw [sup_assoc, sup_idem]⟩

/-! ## what does not hold, and a concrete case -/

/-- a tube of two slices -/
def opTube : Tube ℚ := ⟨0, 2, Itv.icc 0 1, [⟨0, 1, Itv.icc 0 1, Itv.icc 0 1⟩, ⟨1, 2, Itv.icc 0 1, Itv.icc 0 1⟩]⟩

/-- C138: `*s += 2` on each slice of a tube moves the gates between slices twice: the translated trajectory is lost -/
theorem C138_pass_fails : opTube.WF ∧ opTube.Encloses (fun _ => 0) ∧ ¬ (passScalar (IArith.exact ℚ).add opTube 2).Encloses (fun _ => 0 + 2) := by
  have e : (passScalar (IArith.exact ℚ).add opTube 2).slices =
      [⟨0, 1, Itv.icc 2 3, Itv.icc 2 3, Itv.icc 4 5⟩, ⟨1, 2, Itv.icc 2 3, Itv.icc 4 5, Itv.icc 2 3⟩] := by decide +kernel
  refine ⟨⟨by simp [opTube], rfl, by decide +kernel, rfl, by decide +kernel, rfl⟩, ?_, ?_⟩
  · intro s hs
    have hs' : s ∈ ([⟨0, 1, Itv.icc 0 1, Itv.icc 0 1, Itv.icc 0 1⟩, ⟨1, 2, Itv.icc 0 1, Itv.icc 0 1, Itv.icc 0 1⟩] : List (Slice ℚ)) := hs
    simp only [List.mem_cons, List.not_mem_nil, or_false] at hs'
    have h0 : (0 : ℚ) ∈ Itv.icc (0 : ℚ) 1 := by decide +kernel
    rcases hs' with rfl | rfl <;> exact ⟨h0, h0, fun _ _ _ => h0⟩
  · intro h
    have := (h ⟨0, 1, Itv.icc 2 3, Itv.icc 2 3, Itv.icc 4 5⟩ (by rw [e]; simp)).2.1
    rw [Itv.mem_icc] at this
    norm_num at this

/-- the addition of intervals encloses the addition; on one slice the operator is right -/
example : EnclosesOp (IArith.exact ℚ).add (· + ·) := fun _ _ _ _ ha hb => (IArith.exact ℚ).add_mem ha hb

example : opScalar (IArith.exact ℚ).add 2 none none (⟨0, 1, Itv.icc 0 1, Itv.icc 0 1, Itv.icc (1 / 2) 1⟩ : Slice ℚ) =
    ⟨0, 1, Itv.icc 2 3, Itv.icc 2 3, Itv.icc (5 / 2) 3⟩ := by decide +kernel

example : opTube.sameSlicing opTube = true := by decide +kernel

end Codac.Props
