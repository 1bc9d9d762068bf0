import Verif.Tube.VecOpsProofs
import Verif.Props.TubeAccess
import Verif.Props.TubeOps
import Verif.Props.TubeMisc
import Verif.Props.Traj

/-!
# C111: vectors of tubes

A vector-valued function is given by its components `f i`. It is in the vector of tubes `x` when its components are in the components of `x`.
-/

set_option linter.unusedSectionVars false

namespace Codac.Props
open Codac TuVec

section order
variable {K : Type*} [LinearOrder K]

/-- the function of components `f` is in the vector of tubes -/
def InVector (x : List (Tube K)) (f : Nat → K → K) : Prop := ∀ (i : Nat) (T : Tube K), x[i]? = some T → T.Encloses (f i)

/-- a vector of `n` proper tubes over `[a,b]` -/
structure VecOver (x : List (Tube K)) (n : Nat) (a b : K) : Prop where
  size : x.length = n
  wf : ∀ T ∈ x, T.WF
  dom : tdomain x = some (a, b)

theorem VecOver.get {x : List (Tube K)} {n : Nat} {a b : K} (h : VecOver x n a b) {i : Nat} {T : Tube K} (hT : x[i]? = some T) : T.WF ∧ T.t0 = a ∧ T.tf = b :=
  have hm := List.mem_iff_getElem?.mpr ⟨i, hT⟩
  ⟨h.wf T hm, ((tdomain_iff.mp h.dom).2 T hm).1, ((tdomain_iff.mp h.dom).2 T hm).2⟩

theorem vecOver_of {x : List (Tube K)} {n : Nat} {a b : K} (hn : x.length = n) (h0 : 0 < n) (h : ∀ (i : Nat) (T : Tube K), x[i]? = some T → T.WF ∧ T.t0 = a ∧ T.tf = b) :
    VecOver x n a b := by
  refine ⟨hn, fun T hT => ?_, tdomain_iff.mpr ⟨fun hx => ?_, fun T hT => ?_⟩⟩
  · obtain ⟨i, hi⟩ := List.mem_iff_getElem?.mp hT; exact (h i T hi).1
  · rw [hx] at hn; simp at hn; omega
  · obtain ⟨i, hi⟩ := List.mem_iff_getElem?.mp hT; exact (h i T hi).2

theorem VecOver.pos {x : List (Tube K)} {n : Nat} {a b : K} (h : VecOver x n a b) : 0 < n := by
  rw [← h.size]; exact List.length_pos_iff.mpr (tdomain_iff.mp h.dom).1

theorem zipWith_get {α β γ : Type*} {φ : α → β → γ} {l : List α} {m : List β} {i : Nat} {c : γ} (h : (List.zipWith φ l m)[i]? = some c) :
    ∃ a b, l[i]? = some a ∧ m[i]? = some b ∧ φ a b = c := by
  rw [List.getElem?_zipWith] at h
  cases ha : l[i]? with
  | none => simp [ha] at h
  | some a =>
    cases hb : m[i]? with
    | none => simp [ha, hb] at h
    | some b => rw [ha, hb] at h; exact ⟨a, b, rfl, rfl, by simpa using h⟩

theorem zipWith_get' {α β γ : Type*} (φ : α → β → γ) {l : List α} {m : List β} {i : Nat} {a : α} {b : β} (ha : l[i]? = some a) (hb : m[i]? = some b) :
    (List.zipWith φ l m)[i]? = some (φ a b) := by simp [List.getElem?_zipWith, ha, hb]

/-! ### Operators -/

section ops
variable {φ : Itv K → Itv K → Itv K} {R : K → K → K → Prop}

/-- **C111**: `f(x1, x2)` on two vectors of tubes of the same size and time domain contains every function whose components are results of the operation on the ones of a
function of `x1` and a function of `x2`. `φ` is the operation on intervals, `R u v w` reads "`w` is a result of the operation on `u` and `v`". -/
theorem C111_binary (hφ : ∀ A B x y z, x ∈ A → y ∈ B → R x y z → z ∈ φ A B) {x1 x2 : List (Tube K)} {n : Nat} {a b : K} (h1 : VecOver x1 n a b) (h2 : VecOver x2 n a b)
    {f g k : Nat → K → K} (hf : InVector x1 f) (hg : InVector x2 g) (hk : ∀ i t, a ≤ t → t ≤ b → R (f i t) (g i t) (k i t)) :
    ∃ y, bin φ x1 x2 = some y ∧ VecOver y n a b ∧ InVector y k := by
  have key : ∀ (i : Nat) (T : Tube K), (List.zipWith (fun a b => a.binOp φ b) x1 x2)[i]? = some T → (T.WF ∧ T.t0 = a ∧ T.tf = b) ∧ T.Encloses (k i) := by
    intro i T hT
    obtain ⟨X, Y, hX, hY, rfl⟩ := zipWith_get hT
    obtain ⟨w1, a1, b1⟩ := h1.get hX
    obtain ⟨w2, a2, b2⟩ := h2.get hY
    obtain ⟨e1, e2, e3, e4⟩ := C09_binary hφ w1 w2 (a1.trans a2.symm) (b1.trans b2.symm) (hf i X hX) (hg i Y hY) (k := k i) fun t ht1 ht2 => hk i t (a1 ▸ ht1) (b1 ▸ ht2)
    exact ⟨⟨e2, e3.trans a1, e4.trans b1⟩, e1⟩
  refine ⟨_, by unfold bin; rw [if_pos ⟨h1.size.trans h2.size.symm, by rw [h1.dom]; simp, h1.dom.trans h2.dom.symm⟩], ?_, fun i T hT => (key i T hT).2⟩
  exact vecOver_of (by simp [h1.size, h2.size]) h1.pos fun i T hT => (key i T hT).1

/-- **C111**: the intersection `x1 & x2` contains exactly the functions which are in both vectors. -/
theorem C111_inter_exact {x1 x2 : List (Tube K)} {n : Nat} {a b : K} (h1 : VecOver x1 n a b) (h2 : VecOver x2 n a b) :
    ∃ y, bin (· ⊓ ·) x1 x2 = some y ∧ y.length = n ∧ ∀ f, InVector y f ↔ InVector x1 f ∧ InVector x2 f := by
  refine ⟨_, by unfold bin; rw [if_pos ⟨h1.size.trans h2.size.symm, by rw [h1.dom]; simp, h1.dom.trans h2.dom.symm⟩], by simp [h1.size, h2.size], fun f => ?_⟩
  have key : ∀ (i : Nat) (X Y : Tube K), x1[i]? = some X → x2[i]? = some Y → ((X.binOp (· ⊓ ·) Y).Encloses (f i) ↔ X.Encloses (f i) ∧ Y.Encloses (f i)) := by
    intro i X Y hX hY
    obtain ⟨w1, a1, b1⟩ := h1.get hX
    obtain ⟨w2, a2, b2⟩ := h2.get hY
    exact C08_inter_exact w1 w2 (a1.trans a2.symm) (b1.trans b2.symm) (f i)
  constructor
  · intro h
    constructor
    · intro i X hX
      obtain ⟨Y, hY⟩ := TVec.get_of_length (h2.size.trans h1.size.symm) hX
      exact ((key i X Y hX hY).mp (h i _ (zipWith_get' _ hX hY))).1
    · intro i Y hY
      obtain ⟨X, hX⟩ := TVec.get_of_length (h1.size.trans h2.size.symm) hY
      exact ((key i X Y hX hY).mp (h i _ (zipWith_get' _ hX hY))).2
  · rintro ⟨hf, hg⟩ i T hT
    obtain ⟨X, Y, hX, hY, rfl⟩ := zipWith_get hT
    exact (key i X Y hX hY).mpr ⟨hf i X hX, hg i Y hY⟩

/-- **C111**: the operators with a box (`x + b`, `x - b`, `x | b`, `x & b`, `x += b`...). -/
theorem C111_box (hφ : ∀ A B x y z, x ∈ A → y ∈ B → R x y z → z ∈ φ A B) {x : List (Tube K)} {n : Nat} {a b : K} (h : VecOver x n a b) {c : Box K} (hc : c.length = n)
    {f k : Nat → K → K} (hf : InVector x f) (hk : ∀ i B t, c[i]? = some B → a ≤ t → t ≤ b → ∃ v ∈ B, R (f i t) v (k i t)) :
    ∃ y, binBox φ x c = some y ∧ VecOver y n a b ∧ InVector y k := by
  have key : ∀ (i : Nat) (T : Tube K), (List.zipWith (fun a i => a.map fun X => φ X i) x c)[i]? = some T → (T.WF ∧ T.t0 = a ∧ T.tf = b) ∧ T.Encloses (k i) := by
    intro i T hT
    obtain ⟨X, B, hX, hB, rfl⟩ := zipWith_get hT
    obtain ⟨w1, a1, b1⟩ := h.get hX
    obtain ⟨e1, e2, e3, e4⟩ := C09_unary (φ := fun X => φ X B) (R := fun u w => ∃ v ∈ B, R u v w) (fun A u w hu ⟨v, hv, hr⟩ => hφ A B u v w hu hv hr) w1 (hf i X hX) (k := k i)
      fun t ht1 ht2 => hk i B t hB (a1 ▸ ht1) (b1 ▸ ht2)
    exact ⟨⟨e2, e3.trans a1, e4.trans b1⟩, e1⟩
  refine ⟨_, by unfold binBox; rw [if_pos (h.size.trans hc.symm)], ?_, fun i T hT => (key i T hT).2⟩
  exact vecOver_of (by simp [h.size, hc]) h.pos fun i T hT => (key i T hT).1

/-- **C111**: `-x`, `abs(x)`, `I * x`, `x / I`, `x += I`...; `S u w` reads "`w` is a result of the function on `u`". -/
theorem C111_unary {ψ : Itv K → Itv K} {S : K → K → Prop} (hψ : ∀ A x z, x ∈ A → S x z → z ∈ ψ A) {x : List (Tube K)} {n : Nat} {a b : K} (h : VecOver x n a b)
    {f k : Nat → K → K} (hf : InVector x f) (hk : ∀ i t, a ≤ t → t ≤ b → S (f i t) (k i t)) : VecOver (TuVec.map ψ x) n a b ∧ InVector (TuVec.map ψ x) k := by
  have key : ∀ (i : Nat) (T : Tube K), (TuVec.map ψ x)[i]? = some T → (T.WF ∧ T.t0 = a ∧ T.tf = b) ∧ T.Encloses (k i) := by
    intro i T hT
    unfold TuVec.map at hT
    rw [List.getElem?_map, Option.map_eq_some_iff] at hT
    obtain ⟨X, hX, rfl⟩ := hT
    obtain ⟨w1, a1, b1⟩ := h.get hX
    obtain ⟨e1, e2, e3, e4⟩ := C09_unary hψ w1 (hf i X hX) (k := k i) fun t ht1 ht2 => hk i t (a1 ▸ ht1) (b1 ▸ ht2)
    exact ⟨⟨e2, e3.trans a1, e4.trans b1⟩, e1⟩
  exact ⟨vecOver_of (by simp [TuVec.map, h.size]) h.pos fun i T hT => (key i T hT).1, fun i T hT => (key i T hT).2⟩

/-- **C111**: `y * x` and `x / y` with a tube `y` over the same domain, which may be a component of `x`. -/
theorem C111_scalar (hφ : ∀ A B x y z, x ∈ A → y ∈ B → R x y z → z ∈ φ A B) {x : List (Tube K)} {n : Nat} {a b : K} (h : VecOver x n a b) {y : Tube K} (hy : y.WF)
    (ha : y.t0 = a) (hb : y.tf = b) {swap : Bool} {f k : Nat → K → K} {g : K → K} (hf : InVector x f) (hg : y.Encloses g)
    (hk : ∀ i t, a ≤ t → t ≤ b → R (f i t) (g t) (k i t)) : ∃ z, binScal φ swap x y = some z ∧ VecOver z n a b ∧ InVector z k := by
  have key : ∀ (i : Nat) (T : Tube K), (x.map fun a => if swap then y.binOp (fun B A => φ A B) a else a.binOp φ y)[i]? = some T →
      (T.WF ∧ T.t0 = a ∧ T.tf = b) ∧ T.Encloses (k i) := by
    intro i T hT
    rw [List.getElem?_map, Option.map_eq_some_iff] at hT
    obtain ⟨X, hX, rfl⟩ := hT
    obtain ⟨w1, a1, b1⟩ := h.get hX
    cases swap with
    | true =>
      obtain ⟨e1, e2, e3, e4⟩ := C09_binary (φ := fun B A => φ A B) (R := fun u v w => R v u w) (fun A B u v w hu hv hr => hφ B A v u w hv hu hr) hy w1 (ha.trans a1.symm)
        (hb.trans b1.symm) hg (hf i X hX) (k := k i) fun t ht1 ht2 => hk i t (ha ▸ ht1) (hb ▸ ht2)
      exact ⟨⟨e2, e3.trans ha, e4.trans hb⟩, e1⟩
    | false =>
      obtain ⟨e1, e2, e3, e4⟩ := C09_binary hφ w1 hy (a1.trans ha.symm) (b1.trans hb.symm) (hf i X hX) hg (k := k i) fun t ht1 ht2 => hk i t (a1 ▸ ht1) (b1 ▸ ht2)
      exact ⟨⟨e2, e3.trans a1, e4.trans b1⟩, e1⟩
  refine ⟨_, by unfold binScal; rw [if_pos (by rw [h.dom, ha, hb])], ?_, fun i T hT => (key i T hT).2⟩
  exact vecOver_of (by simp [h.size]) h.pos fun i T hT => (key i T hT).1

/-- the tube set to an interval -/
theorem set_tube {T : Tube K} (h : T.WF) (y : Itv K) {f : K → K} (hf : ∀ t, f t ∈ y) : (T.set y).WF ∧ (T.set y).t0 = T.t0 ∧ (T.set y).tf = T.tf ∧ (T.set y).Encloses f := by
  rw [set_eq h.ne]
  refine ⟨⟨fun hc => h.ne (by simpa [constCells] using hc), (tiles_of_bounds (constCells_bounds _ _)).mpr h.tiles⟩, rfl, rfl, fun s hs => ?_⟩
  obtain ⟨e1, e2, e3⟩ := mem_slices_const (cs := T.cells) hs
  exact ⟨e2 ▸ hf _, e3 ▸ hf _, fun t _ _ => e1 ▸ hf _⟩

/-- **C111**: `y * b` and `b / y` with a tube `y` and a box `b`: the vectors of the products, of the quotients, of `y` and the vectors of `b`. -/
theorem C111_tube_box (hφ : ∀ A B x y z, x ∈ A → y ∈ B → R x y z → z ∈ φ A B) {y : Tube K} (hy : y.WF) {c : Box K} (hc : c ≠ []) {g : K → K} (hg : y.Encloses g)
    {k : Nat → K → K} {v : Nat → K} (hv : ∀ (i : Nat) (B : Itv K), c[i]? = some B → v i ∈ B) :
    ((∀ i t, R (g t) (v i) (k i t)) → VecOver (mulBox φ y c) c.length y.t0 y.tf ∧ InVector (mulBox φ y c) k) ∧
      ((∀ i t, R (v i) (g t) (k i t)) → VecOver (divBox φ c y) c.length y.t0 y.tf ∧ InVector (divBox φ c y) k) := by
  have hpos : 0 < c.length := List.length_pos_iff.mpr hc
  constructor
  · intro hk
    have key : ∀ (i : Nat) (T : Tube K), (mulBox φ y c)[i]? = some T → (T.WF ∧ T.t0 = y.t0 ∧ T.tf = y.tf) ∧ T.Encloses (k i) := by
      intro i T hT
      unfold mulBox at hT
      rw [List.getElem?_map, Option.map_eq_some_iff] at hT
      obtain ⟨B, hB, rfl⟩ := hT
      obtain ⟨e1, e2, e3, e4⟩ := C09_unary (φ := fun Y => φ Y B) (R := fun u w => R u (v i) w) (fun A u w hu hr => hφ A B u (v i) w hu (hv i B hB) hr) hy hg (k := k i) fun t _ _ => hk i t
      exact ⟨⟨e2, e3, e4⟩, e1⟩
    exact ⟨vecOver_of (by simp [mulBox]) hpos fun i T hT => (key i T hT).1, fun i T hT => (key i T hT).2⟩
  · intro hk
    have key : ∀ (i : Nat) (T : Tube K), (divBox φ c y)[i]? = some T → (T.WF ∧ T.t0 = y.t0 ∧ T.tf = y.tf) ∧ T.Encloses (k i) := by
      intro i T hT
      unfold divBox at hT
      rw [List.getElem?_map, Option.map_eq_some_iff] at hT
      obtain ⟨B, hB, rfl⟩ := hT
      obtain ⟨s1, s2, s3, s4⟩ := set_tube hy B (f := fun _ => v i) fun _ => hv i B hB
      obtain ⟨e1, e2, e3, e4⟩ := C09_binary hφ s1 hy s2 s3 s4 hg (k := k i) fun t _ _ => hk i t
      exact ⟨⟨e2, e3.trans s2, e4.trans s3⟩, e1⟩
    exact ⟨vecOver_of (by simp [divBox]) hpos fun i T hT => (key i T hT).1, fun i T hT => (key i T hT).2⟩

/-- **C111**: `x1 f= x2` with a vector of tubes whose gates are in their envelopes. -/
theorem C111_assign (hφ : ∀ A B x y z, x ∈ A → y ∈ B → R x y z → z ∈ φ A B) {x1 x2 : List (Tube K)} {n : Nat} {a b : K} (h1 : VecOver x1 n a b) (h2 : VecOver x2 n a b)
    (hgates : ∀ T ∈ x2, T.GatesInEnvelopes) {f g k : Nat → K → K} (hf : InVector x1 f) (hg : InVector x2 g) (hk : ∀ i t, R (f i t) (g i t) (k i t)) :
    ∃ y, assign φ x1 x2 = some y ∧ VecOver y n a b ∧ InVector y k := by
  have key : ∀ (i : Nat) (T : Tube K), (List.zipWith (fun a b => a.opAssign φ b) x1 x2)[i]? = some T → (T.WF ∧ T.t0 = a ∧ T.tf = b) ∧ T.Encloses (k i) := by
    intro i T hT
    obtain ⟨X, Y, hX, hY, rfl⟩ := zipWith_get hT
    obtain ⟨w1, a1, b1⟩ := h1.get hX
    obtain ⟨w2, a2, b2⟩ := h2.get hY
    obtain ⟨e1, e2⟩ := C09_op_assign hφ w1 w2 (hgates Y (List.mem_iff_getElem?.mpr ⟨i, hY⟩)) (hf i X hX) (hg i Y hY) (k := k i) fun t => hk i t
    exact ⟨⟨e2, (opAssign_tdomain X Y).1.trans a1, (opAssign_tdomain X Y).2.trans b1⟩, e1⟩
  refine ⟨_, by unfold assign; rw [if_pos ⟨h1.size.trans h2.size.symm, by rw [h1.dom]; simp, h1.dom.trans h2.dom.symm⟩], ?_, fun i T hT => (key i T hT).2⟩
  exact vecOver_of (by simp [h1.size, h2.size]) h1.pos fun i T hT => (key i T hT).1

/-- **C111**: `x f= y` with a tube `y` which is not a component of `x`. -/
theorem C111_assign_scalar_partial (hφ : ∀ A B x y z, x ∈ A → y ∈ B → R x y z → z ∈ φ A B) {x : List (Tube K)} {n : Nat} {a b : K} (h : VecOver x n a b) {y : Tube K} (hy : y.WF)
    (ha : y.t0 = a) (hb : y.tf = b) (hgates : y.GatesInEnvelopes) (hs : ∀ T ∈ x, T.sameSlicing y = true) {f k : Nat → K → K} {g : K → K} (hf : InVector x f) (hg : y.Encloses g)
    (hk : ∀ i t, R (f i t) (g t) (k i t)) : ∃ z, assignScal φ x (.other y) = some z ∧ VecOver z n a b ∧ InVector z k := by
  obtain ⟨z, hz⟩ := TVec.assignLoop_total (f := fun a b => some (Tube.opAssign φ a b)) (y := y) (n := x.length) (i := 0) (l := x) (by simp) fun k a _ _ => ⟨_, rfl⟩
  have e : assignScal φ x (.other y) = some z := by
    unfold assignScal
    rw [show TVec.Operand.read (.other y) x = some y from rfl, Option.bind_some, if_pos ⟨by rw [h.dom, ha, hb], List.all_eq_true.mpr hs⟩]
    exact hz
  have hl := (TVec.assignLoop_length hz).1
  have key : ∀ (i : Nat) (T : Tube K), z[i]? = some T → (T.WF ∧ T.t0 = a ∧ T.tf = b) ∧ T.Encloses (k i) := by
    intro i T hT
    obtain ⟨X, hX⟩ := TVec.get_of_length hl.symm hT
    obtain ⟨c, hc, hc'⟩ := TVec.assignLoop_const hz (b := y) rfl (by simp) i X (by omega) (by have := (List.getElem?_eq_some_iff.mp hX).1; omega) hX
    rw [hT, Option.some.injEq] at hc
    rw [Option.some.injEq] at hc'
    subst hc
    subst hc'
    obtain ⟨w1, a1, b1⟩ := h.get hX
    obtain ⟨e1, e2⟩ := C09_op_assign hφ w1 hy hgates (hf i X hX) hg (k := k i) fun t => hk i t
    exact ⟨⟨e2, (opAssign_tdomain X y).1.trans a1, (opAssign_tdomain X y).2.trans b1⟩, e1⟩
  exact ⟨z, e, vecOver_of (hl.trans h.size) h.pos fun i T hT => (key i T hT).1, fun i T hT => (key i T hT).2⟩

/-- **C111**: `x f= y` and `f(x, y)` with a vector of trajectories, given by their evaluations over intervals. -/
theorem C111_assign_trajectories (hφ : ∀ A B x y z, x ∈ A → y ∈ B → R x y z → z ∈ φ A B) {x : List (Tube K)} {n : Nat} {a b : K} (h : VecOver x n a b)
    {ev : List (Itv K → Itv K)} (hn : ev.length = n) {f g k : Nat → K → K} (hf : InVector x f)
    (hev : ∀ (i : Nat) (e : Itv K → Itv K), ev[i]? = some e → ∀ I t, a ≤ t → t ≤ b → t ∈ I → g i t ∈ e I) (hk : ∀ i t, R (f i t) (g i t) (k i t)) :
    ∃ y, assignTraj φ x ev = some y ∧ VecOver y n a b ∧ InVector y k := by
  have key : ∀ (i : Nat) (T : Tube K), (List.zipWith (fun a e => a.opAssignTraj φ e) x ev)[i]? = some T → (T.WF ∧ T.t0 = a ∧ T.tf = b) ∧ T.Encloses (k i) := by
    intro i T hT
    obtain ⟨X, e, hX, he, rfl⟩ := zipWith_get hT
    obtain ⟨w1, a1, b1⟩ := h.get hX
    obtain ⟨e1, e2⟩ := C09_trajectory_operand hφ w1 (ev := e) (g := g i) (k := k i) (fun I t h1 h2 hI => hev i e he I t (a1 ▸ h1) (b1 ▸ h2) hI) (hf i X hX) fun t => hk i t
    exact ⟨⟨e2, a1, b1⟩, e1⟩
  refine ⟨_, by unfold assignTraj; rw [if_pos (h.size.trans hn.symm)], ?_, fun i T hT => (key i T hT).2⟩
  exact vecOver_of (by simp [h.size, hn]) h.pos fun i T hT => (key i T hT).1

end ops

/-- **C111**: the hull of a list of vectors contains the functions of all of them. -/
theorem C111_hull {l : List (List (Tube K))} (hne : l ≠ []) {n : Nat} {a b : K} (h : ∀ x ∈ l, VecOver x n a b ∧ ∀ T ∈ x, T.GatesInEnvelopes) :
    ∃ y, TuVec.hull l = some y ∧ VecOver y n a b ∧ ∀ x ∈ l, ∀ f, InVector x f → InVector y f := by
  cases l with
  | nil => exact absurd rfl hne
  | cons x l =>
    have step : ∀ (l : List (List (Tube K))) (c : List (Tube K)), (∀ x ∈ l, VecOver x n a b ∧ ∀ T ∈ x, T.GatesInEnvelopes) → VecOver c n a b →
        ∃ y, l.foldlM (fun h y => assign (· ⊔ ·) h y) c = some y ∧ VecOver y n a b ∧ (∀ f, InVector c f → InVector y f) ∧ ∀ x ∈ l, ∀ f, InVector x f → InVector y f := by
      intro l
      induction l with
      | nil => intro c _ hc; exact ⟨c, rfl, hc, fun _ h => h, by simp⟩
      | cons x l ih =>
        intro c hl hc
        obtain ⟨hx, hxg⟩ := hl x (by simp)
        have key : ∀ (i : Nat) (T : Tube K), (List.zipWith (fun a b => Tube.opAssign (· ⊔ ·) a b) c x)[i]? = some T →
            (T.WF ∧ T.t0 = a ∧ T.tf = b) ∧ ∀ f : K → K, (∃ X, c[i]? = some X ∧ X.Encloses f) ∨ (∃ X, x[i]? = some X ∧ X.Encloses f) → T.Encloses f := by
          intro i T hT
          obtain ⟨X, Y, hX, hY, rfl⟩ := zipWith_get hT
          obtain ⟨w1, a1, b1⟩ := hc.get hX
          obtain ⟨w2, a2, b2⟩ := hx.get hY
          refine ⟨⟨opAssign_wf w1, (opAssign_tdomain X Y).1.trans a1, (opAssign_tdomain X Y).2.trans b1⟩, fun f hf => ?_⟩
          refine C08_union_assign w1 w2 (hxg Y (List.mem_iff_getElem?.mpr ⟨i, hY⟩)) (a1.trans a2.symm) (b1.trans b2.symm) ?_
          rcases hf with ⟨Z, hZ, hf⟩ | ⟨Z, hZ, hf⟩
          · rw [hX, Option.some.injEq] at hZ; exact .inl (hZ ▸ hf)
          · rw [hY, Option.some.injEq] at hZ; exact .inr (hZ ▸ hf)
        have e : assign (· ⊔ ·) c x = some (List.zipWith (fun a b => Tube.opAssign (· ⊔ ·) a b) c x) := by
          unfold assign; rw [if_pos ⟨hc.size.trans hx.size.symm, by rw [hc.dom]; simp, hc.dom.trans hx.dom.symm⟩]
        have hv : VecOver (List.zipWith (fun a b => Tube.opAssign (· ⊔ ·) a b) c x) n a b := vecOver_of (by simp [hc.size, hx.size]) hc.pos fun i T hT => (key i T hT).1
        obtain ⟨y, y1, y2, y3, y4⟩ := ih _ (fun z hz => hl z (by simp [hz])) hv
        refine ⟨y, by rw [List.foldlM_cons, e]; exact y1, y2, fun f hf => y3 f fun i T hT => ?_, fun z hz f hf => ?_⟩
        · obtain ⟨X, Y, hX, hY, -⟩ := zipWith_get hT
          exact (key i T hT).2 _ (.inl ⟨X, hX, hf i X hX⟩)
        · rcases List.mem_cons.mp hz with rfl | hz
          · refine y3 f fun i T hT => ?_
            obtain ⟨X, Y, hX, hY, -⟩ := zipWith_get hT
            exact (key i T hT).2 _ (.inr ⟨Y, hY, hf i Y hY⟩)
          · exact y4 z hz f hf
    obtain ⟨y, y1, y2, y3, y4⟩ := step l x (fun z hz => h z (by simp [hz])) (h x (by simp)).1
    refine ⟨y, y1, y2, fun z hz f hf => ?_⟩
    rcases List.mem_cons.mp hz with rfl | hz
    · exact y3 f hf
    · exact y4 z hz f hf

/-! ### Questions -/

/-- **C111**: `is_empty()` is true exactly when no function is in the vector. -/
theorem C111_isEmpty [DenselyOrdered K] [NoMinOrder K] [NoMaxOrder K] [Nonempty K] {x : List (Tube K)} {n : Nat} {a b : K} (h : VecOver x n a b) :
    TuVec.isEmpty x = true ↔ ¬ ∃ f, InVector x f := by
  unfold TuVec.isEmpty
  rw [List.any_eq_true]
  constructor
  · rintro ⟨T, hT, he⟩ ⟨f, hf⟩
    obtain ⟨i, hi⟩ := List.mem_iff_getElem?.mp hT
    exact (C10_is_empty (h.wf T hT)).mp he ⟨_, hf i T hi⟩
  · intro hn
    by_contra hc
    push Not at hc
    apply hn
    have : ∀ i : Nat, ∃ g : K → K, ∀ T, x[i]? = some T → T.Encloses g := by
      intro i
      cases hi : x[i]? with
      | none => exact ⟨id, by simp⟩
      | some T =>
        have hm := List.mem_iff_getElem?.mpr ⟨i, hi⟩
        by_contra hcon
        exact hc T hm ((C10_is_empty (h.wf T hm)).mpr fun ⟨g, hg⟩ => hcon ⟨g, by rintro T' ⟨⟩; exact hg⟩)
    choose f hf using this
    exact ⟨f, hf⟩

/-- **C111**: two vectors which are `==` have the same size and the same functions. -/
theorem C111_equal {x y : List (Tube K)} (hx : ∀ T ∈ x, T.WF) (hy : ∀ T ∈ y, T.WF) : TuVec.beq x y = true ↔ x = y := by
  unfold TuVec.beq
  constructor
  · intro h
    split_ifs at h with hl
    rw [not_not] at hl
    apply List.ext_getElem?
    intro i
    cases hi : x[i]? with
    | none => rw [List.getElem?_eq_none_iff] at hi; rw [List.getElem?_eq_none (by omega)]
    | some X =>
      obtain ⟨Y, hY⟩ := TVec.get_of_length hl.symm hi
      have := List.all_eq_true.mp h _ (List.mem_iff_getElem?.mpr ⟨i, zipWith_get' _ hi hY⟩)
      rw [hY, (C10_equal (hx X (List.mem_iff_getElem?.mpr ⟨i, hi⟩)) (hy Y (List.mem_iff_getElem?.mpr ⟨i, hY⟩)) this).2]
  · rintro rfl
    rw [if_neg (by simp), List.all_eq_true]
    intro b hb
    obtain ⟨i, hi⟩ := List.mem_iff_getElem?.mp hb
    obtain ⟨X, Y, hX, hY, rfl⟩ := zipWith_get hi
    rw [hX, Option.some.injEq] at hY
    subst hY
    simp [Tube.eqT]

/-! ### Bisection -/

/-- **C111**: `bisect(t)` shares the functions of the vector between the two results: the ones whose value at `t` is in the first box, the ones whose value at `t` is in the
second box. `bis` cuts a box in two boxes which cover it. -/
theorem C111_bisect {bis : Box K → Option (Box K × Box K)} {x : List (Tube K)} {n : Nat} {a b : K} (h : VecOver x n a b) (hg : ∀ T ∈ x, T.GatesInEnvelopes) {t : K} (h1 : a ≤ t)
    (h2 : t ≤ b) {P Q : Box K} (hb : bis (TuVec.eval x t) = some (P, Q)) (hP : List.Forall₂ (· ≤ ·) P (TuVec.eval x t)) (hQ : List.Forall₂ (· ≤ ·) Q (TuVec.eval x t))
    (hcov : ∀ v, InBox v (TuVec.eval x t) → InBox v P ∨ InBox v Q) :
    ∃ y z, TuVec.bisect bis x t = some (y, z) ∧ VecOver y n a b ∧ VecOver z n a b ∧ (∀ f, InVector x f ↔ InVector y f ∨ InVector z f) ∧
      (∀ f, InVector y f ↔ InVector x f ∧ ∀ (i : Nat) (B : Itv K), P[i]? = some B → f i t ∈ B) ∧
      ∀ f, InVector z f ↔ InVector x f ∧ ∀ (i : Nat) (B : Itv K), Q[i]? = some B → f i t ∈ B := by
  have hlen : (TuVec.eval x t).length = x.length := by simp [TuVec.eval]
  have hdom : ∃ d, tdomain x = some d ∧ d.1 ≤ t ∧ t ≤ d.2 := ⟨(a, b), h.dom, h1, h2⟩
  have half : ∀ P : Box K, List.Forall₂ (· ≤ ·) P (TuVec.eval x t) → ∃ y, TuVec.setAt x P t = some y ∧ VecOver y n a b ∧
      ∀ f, InVector y f ↔ InVector x f ∧ ∀ (i : Nat) (B : Itv K), P[i]? = some B → f i t ∈ B := by
    intro P hP
    have hl : x.length = P.length := by rw [hP.length_eq, hlen]
    have key : ∀ (i : Nat) (T : Tube K) (B : Itv K), x[i]? = some T → P[i]? = some B → ((T.setAt B t).WF ∧ (T.setAt B t).t0 = a ∧ (T.setAt B t).tf = b) ∧
        ∀ f : K → K, (T.setAt B t).Encloses f ↔ T.Encloses f ∧ f t ∈ B := by
      intro i T B hT hB
      obtain ⟨w1, a1, b1⟩ := h.get hT
      have hle : B ≤ T.evalAt t := by
        have e : (TuVec.eval x t)[i]? = some (T.evalAt t) := by simp [TuVec.eval, hT]
        obtain ⟨u1, u2⟩ := List.getElem?_eq_some_iff.mp hB
        obtain ⟨v1, v2⟩ := List.getElem?_eq_some_iff.mp e
        have := List.Forall₂.get hP u1 v1
        simp only [List.get_eq_getElem, u2, v2] at this
        exact this
      have hd := sampleGate_dom T t B
      exact ⟨⟨sampleGate_wf w1 (a1 ▸ h1) (b1 ▸ h2) B, hd.1.trans a1, hd.2.trans b1⟩,
        C04_set_instant_inter w1 (hg T (List.mem_iff_getElem?.mpr ⟨i, hT⟩)) (a1 ▸ h1) (b1 ▸ h2) B hle⟩
    refine ⟨_, by unfold TuVec.setAt; rw [if_pos ⟨hl, hdom⟩], ?_, fun f => ⟨fun hf => ⟨fun i T hT => ?_, fun i B hB => ?_⟩, fun hf i T hT => ?_⟩⟩
    · refine vecOver_of (by simp [← hl, h.size]) h.pos fun i T hT => ?_
      obtain ⟨X, B, hX, hB, rfl⟩ := zipWith_get hT
      exact (key i X B hX hB).1
    · obtain ⟨B, hB⟩ := TVec.get_of_length hl.symm hT
      exact (((key i T B hT hB).2 _).mp (hf i _ (zipWith_get' _ hT hB))).1
    · obtain ⟨T, hT⟩ := TVec.get_of_length hl hB
      exact (((key i T B hT hB).2 _).mp (hf i _ (zipWith_get' _ hT hB))).2
    · obtain ⟨X, B, hX, hB, rfl⟩ := zipWith_get hT
      exact ((key i X B hX hB).2 _).mpr ⟨hf.1 i X hX, hf.2 i B hB⟩
  obtain ⟨y, y1, y2, y3⟩ := half P hP
  obtain ⟨z, z1, z2, z3⟩ := half Q hQ
  refine ⟨y, z, by unfold TuVec.bisect; rw [hb, Option.bind_some, y1, Option.bind_some, z1]; rfl, y2, z2, fun f => ⟨fun hf => ?_, ?_⟩, y3, z3⟩
  · have hin : InBox ((List.range x.length).map fun i => f i t) (TuVec.eval x t) := by
      refine List.forall₂_iff_get.mpr ⟨by simp [hlen], fun i hi1 hi2 => ?_⟩
      have hi : i < x.length := by simpa using hi1
      simp only [List.get_eq_getElem, TuVec.eval, List.getElem_map, List.getElem_range]
      exact evalAt_mem (h.wf _ (List.getElem_mem hi)) (hf i _ (List.getElem?_eq_getElem hi)) t
    have pick : ∀ B : Box K, InBox ((List.range x.length).map fun i => f i t) B → ∀ (i : Nat) (I : Itv K), B[i]? = some I → f i t ∈ I := by
      intro B hB i I hI
      obtain ⟨u1, u2⟩ := List.getElem?_eq_some_iff.mp hI
      have hlB := List.Forall₂.length_eq hB
      have := List.Forall₂.get hB (i := i) (by omega) u1
      simp only [List.get_eq_getElem, List.getElem_map, List.getElem_range, u2] at this
      exact this
    rcases hcov _ hin with hc | hc
    · exact .inl ((y3 f).mpr ⟨hf, pick P hc⟩)
    · exact .inr ((z3 f).mpr ⟨hf, pick Q hc⟩)
  · rintro (hf | hf)
    · exact ((y3 f).mp hf).1
    · exact ((z3 f).mp hf).1

/-- **C111**: `bisect(t, i)` shares the functions of the vector according to the value at `t` of their component `i`; the other components are not changed. -/
theorem C111_bisect_dim {bis : Box K → Option (Box K × Box K)} {x : List (Tube K)} {n : Nat} {a b : K} (h : VecOver x n a b) {i : Nat} {T : Tube K} (hT : x[i]? = some T)
    (hg : T.GatesInEnvelopes) {t : K} (h1 : a ≤ t) (h2 : t ≤ b) {P Q : Itv K} (hb : bis [T.evalAt t] = some ([P], [Q])) (hP : P ≤ T.evalAt t) (hQ : Q ≤ T.evalAt t)
    (hcov : ∀ v ∈ T.evalAt t, v ∈ P ∨ v ∈ Q) :
    ∃ y z, bisectDim bis x t i = some (y, z) ∧ (∀ j ≠ i, y[j]? = x[j]? ∧ z[j]? = x[j]?) ∧ (∀ f, InVector x f ↔ InVector y f ∨ InVector z f) ∧
      (∀ f, InVector y f ↔ InVector x f ∧ f i t ∈ P) ∧ ∀ f, InVector z f ↔ InVector x f ∧ f i t ∈ Q := by
  obtain ⟨w1, a1, b1⟩ := h.get hT
  have hi := (List.getElem?_eq_some_iff.mp hT).1
  have half : ∀ P : Itv K, P ≤ T.evalAt t → ∀ f, InVector (x.set i (T.setAt P t)) f ↔ InVector x f ∧ f i t ∈ P := by
    intro P hP f
    have e := C04_set_instant_inter w1 hg (a1 ▸ h1) (b1 ▸ h2) P hP (f i)
    constructor
    · intro hf
      have h0 := e.mp (hf i _ (List.getElem?_set_self hi))
      refine ⟨fun j X hX => ?_, h0.2⟩
      by_cases hij : i = j
      · subst hij; rw [hT, Option.some.injEq] at hX; exact hX ▸ h0.1
      · exact hf j X (by rw [List.getElem?_set_ne hij]; exact hX)
    · rintro ⟨hf, hv⟩ j X hX
      by_cases hij : i = j
      · subst hij
        rw [List.getElem?_set_self hi, Option.some.injEq] at hX
        exact hX ▸ e.mpr ⟨hf i T hT, hv⟩
      · rw [List.getElem?_set_ne hij] at hX; exact hf j X hX
  refine ⟨x.set i (T.setAt P t), x.set i (T.setAt Q t), ?_, fun j hj => ?_, fun f => ?_, half P hP, half Q hQ⟩
  · unfold bisectDim
    rw [hT, Option.bind_some, h.dom, Option.bind_some, if_pos ⟨h1, h2⟩, hb]
    rfl
  · rw [List.getElem?_set_ne (Ne.symm hj), List.getElem?_set_ne (Ne.symm hj)]; exact ⟨rfl, rfl⟩
  · rw [half P hP, half Q hQ]
    constructor
    · intro hf
      rcases hcov _ (evalAt_mem w1 (hf i T hT) t) with hc | hc
      · exact .inl ⟨hf, hc⟩
      · exact .inr ⟨hf, hc⟩
    · rintro (hf | hf) <;> exact hf.1

/-! ### Size -/

/-- **C111**: `resize(n)` keeps the first components; the new ones are over the same domain and contain every function. The vector must have a component. -/
theorem C111_resize_partial {x : List (Tube K)} {m n : Nat} {a b : K} (h : VecOver x m a b) (hn : 0 < n) :
    ∃ y, TuVec.resize x n = some y ∧ VecOver y n a b ∧ ∀ f, InVector y f ↔ ∀ (i : Nat) (T : Tube K), i < n → x[i]? = some T → T.Encloses (f i) := by
  unfold TuVec.resize
  rw [if_neg (by omega)]
  by_cases hle : n ≤ x.length
  · rw [if_pos hle]
    refine ⟨_, rfl, vecOver_of (by simp [hle]) hn fun i T hT => ?_, fun f => ?_⟩
    · rw [List.getElem?_take] at hT
      split_ifs at hT
      exact h.get hT
    · constructor
      · intro hf i T hi hT; exact hf i T (by rw [List.getElem?_take, if_pos hi]; exact hT)
      · intro hf i T hT
        rw [List.getElem?_take] at hT
        split_ifs at hT with hi
        exact hf i T hi hT
  · rw [if_neg hle]
    cases x with
    | nil => exact absurd rfl (tdomain_iff.mp h.dom).1
    | cons T0 l =>
      obtain ⟨w0, a0, b0⟩ := h.get (i := 0) (T := T0) rfl
      dsimp only
      have tail : ∀ (i : Nat) (T : Tube K), (T0 :: l).length ≤ i → (T0 :: l ++ List.replicate (n - (T0 :: l).length) (T0.set ⊤))[i]? = some T → T = T0.set ⊤ := by
        intro i T hi hT
        rw [List.getElem?_append_right hi] at hT
        exact List.eq_of_mem_replicate (List.mem_iff_getElem?.mpr ⟨_, hT⟩)
      refine ⟨_, rfl, vecOver_of (by simp at hle ⊢; omega) hn fun i T hT => ?_, fun f => ?_⟩
      · by_cases hi : i < (T0 :: l).length
        · rw [List.getElem?_append_left hi] at hT; exact h.get hT
        · rw [tail i T (by omega) hT]
          obtain ⟨s1, s2, s3, -⟩ := set_tube w0 ⊤ (f := id) fun t => Itv.mem_top _
          exact ⟨s1, s2.trans a0, s3.trans b0⟩
      · constructor
        · intro hf i T _ hT
          have hi := (List.getElem?_eq_some_iff.mp hT).1
          exact hf i T (by rw [List.getElem?_append_left hi]; exact hT)
        · intro hf i T hT
          by_cases hi : i < (T0 :: l).length
          · rw [List.getElem?_append_left hi] at hT; exact hf i T (by omega) hT
          · rw [tail i T (by omega) hT]
            exact (set_tube w0 ⊤ fun t => Itv.mem_top _).2.2.2

/-- **C111** fails for a vector built by the default constructor: `resize` copies its first component, which does not exist. -/
theorem C111_resize_fails (n : Nat) : TuVec.resize ([] : List (Tube K)) n = none := by
  cases n <;> rfl

end order

section contains
variable {K : Type*} [Field K] [LinearOrder K] [IsStrictOrderedRing K]

/-- **C111**: `contains(x)` with a vector of trajectories: YES when they are in the vector of tubes, NO when one of them goes out. -/
theorem C111_contains {mid : K → K → K} {eps : K} (hm : ∀ a b, a ≤ b → a ≤ mid a b ∧ mid a b ≤ b) {x : List (Tube K)} {n : Nat} {a b : K} (h : VecOver x n a b)
    (hg : ∀ T ∈ x, T.GatesInEnvelopes) {ev : List (Itv K → Itv K)} {f : Nat → K → K} (hev : ∀ (i : Nat) (e : Itv K → Itv K), ev[i]? = some e → EnclosesOn e (f i) a b) {m : Nat}
    {r : Answer} (hr : TuVec.contains mid eps m x ev = some r) :
    (r = .yes → InVector x f) ∧ (r = .no → ∃ (i : Nat) (T : Tube K) (t : K), x[i]? = some T ∧ a ≤ t ∧ t ≤ b ∧ f i t ∉ T.evalAt t) := by
  unfold TuVec.contains at hr
  split_ifs at hr with hl
  obtain ⟨h1, h2⟩ := containsLoop_spec hr
  have comp : ∀ (i : Nat) (T : Tube K) (e : Itv K → Itv K), x[i]? = some T → ev[i]? = some e → ∀ q, T.contains e mid eps m = some q →
      (q = .yes → T.Encloses (f i)) ∧ (q = .no → ∃ t, a ≤ t ∧ t ≤ b ∧ f i t ∉ T.evalAt t) := by
    intro i T e hT he q hq
    obtain ⟨w1, a1, b1⟩ := h.get hT
    obtain ⟨c1, c2⟩ := C40_contains hm w1 (hg T (List.mem_iff_getElem?.mpr ⟨i, hT⟩)) (f := f i) (by rw [a1, b1]; exact hev i e he) hq
    refine ⟨fun hy => (encloses_iff_evalAt w1).mpr (c1 hy), fun hn => ?_⟩
    obtain ⟨t, t1, t2, t3⟩ := c2 hn
    exact ⟨t, a1 ▸ t1, b1 ▸ t2, t3⟩
  constructor
  · intro hy i T hT
    obtain ⟨e, he⟩ := TVec.get_of_length hl.symm hT
    exact (comp i T e hT he .yes ((h1 hy).2 _ (List.mem_iff_getElem?.mpr ⟨i, zipWith_get' _ hT he⟩))).1 rfl
  · intro hn
    rcases h2 hn with h2 | h2
    · cases h2
    · obtain ⟨i, hi⟩ := List.mem_iff_getElem?.mp h2
      obtain ⟨T, e, hT, he, hq⟩ := zipWith_get hi
      obtain ⟨t, t1, t2, t3⟩ := (comp i T e hT he .no hq).2 rfl
      exact ⟨i, T, t, hT, t1, t2, t3⟩

/-! ### Diameters -/

theorem gateLoop_spec (l : List (Option K × K)) (m t : Option K) :
    ((gateLoop m t l) = (m, t) ∨ ∃ p ∈ l, gateLoop m t l = (p.1, some p.2)) ∧ ((gateLoop m t l).1 = none ↔ m = none ∨ ∃ p ∈ l, p.1 = none) ∧
      ∀ d, (gateLoop m t l).1 = some d → (∀ e, m = some e → e ≤ d ∧ (e = d → (gateLoop m t l).2 = t)) ∧ ∀ p ∈ l, ∃ e, p.1 = some e ∧ e ≤ d := by
  induction l generalizing m t with
  | nil =>
    refine ⟨.inl rfl, by simp [gateLoop], fun d hd => ⟨fun e he => ?_, by simp⟩⟩
    simp only [gateLoop] at hd
    rw [he, Option.some.injEq] at hd
    exact ⟨hd.le, fun _ => rfl⟩
  | cons p l ih =>
    obtain ⟨w, u⟩ := p
    have lift : ∀ m' t', gateLoop m t ((w, u) :: l) = gateLoop m' t' l → ((m', t') = (m, t) ∨ (m', t') = (w, some u)) →
        (gateLoop m t ((w, u) :: l) = (m, t) ∨ ∃ p ∈ (w, u) :: l, gateLoop m t ((w, u) :: l) = (p.1, some p.2)) := by
      intro m' t' e hc
      rw [e]
      rcases (ih m' t').1 with h | ⟨p, hp, h⟩
      · rw [h]
        rcases hc with hc | hc
        · exact .inl hc
        · exact .inr ⟨(w, u), by simp, hc⟩
      · exact .inr ⟨p, by simp [hp], h⟩
    cases m with
    | none =>
      have e : gateLoop none t ((w, u) :: l) = gateLoop none t l := rfl
      refine ⟨lift none t e (.inl rfl), ?_, ?_⟩
      · rw [e, (ih none t).2.1]; simp
      · rw [e]
        intro d hd
        have := (ih none t).2.1.mpr (.inl rfl)
        rw [this] at hd; cases hd
    | some a =>
      cases w with
      | none =>
        have e : gateLoop (some a) t ((none, u) :: l) = gateLoop none (some u) l := rfl
        refine ⟨lift none (some u) e (.inr rfl), ?_, ?_⟩
        · rw [e, (ih none (some u)).2.1]; simp
        · rw [e]
          intro d hd
          have := (ih none (some u)).2.1.mpr (.inl rfl)
          rw [this] at hd; cases hd
      | some w =>
        by_cases hlt : a < w
        · have e : gateLoop (some a) t ((some w, u) :: l) = gateLoop (some w) (some u) l := by simp [gateLoop, hlt]
          refine ⟨lift (some w) (some u) e (.inr rfl), ?_, ?_⟩
          · rw [e, (ih (some w) (some u)).2.1]; simp
          · rw [e]
            intro d hd
            obtain ⟨k1, k2⟩ := (ih (some w) (some u)).2.2 d hd
            have := (k1 w rfl).1
            refine ⟨fun e' he => ?_, fun p hp => ?_⟩
            · rw [Option.some.injEq] at he
              subst he
              exact ⟨(hlt.trans_le this).le, fun h => absurd h (hlt.trans_le this).ne⟩
            · rcases List.mem_cons.mp hp with rfl | hp
              · exact ⟨w, rfl, this⟩
              · exact k2 p hp
        · have e : gateLoop (some a) t ((some w, u) :: l) = gateLoop (some a) t l := by simp [gateLoop, hlt]
          refine ⟨lift (some a) t e (.inl rfl), ?_, ?_⟩
          · rw [e, (ih (some a) t).2.1]; simp
          · rw [e]
            intro d hd
            obtain ⟨k1, k2⟩ := (ih (some a) t).2.2 d hd
            refine ⟨k1, fun p hp => ?_⟩
            rcases List.mem_cons.mp hp with rfl | hp
            · exact ⟨w, rfl, (not_lt.mp hlt).trans (k1 a rfl).1⟩
            · exact k2 p hp

/-- **C111**: `max_gate_diam(t)` is the largest diameter of the gates of the components (infinite exactly when a gate is unbounded), and when it is not 0, `t` is the instant
of a gate of this diameter. -/
theorem C111_max_gate_diam_partial {x : List (Tube K)} {n : Nat} {a b : K} (h : VecOver x n a b) : ∃ r t, TuVec.maxGateDiam x = some (r, t) ∧
    (r = none ↔ ∃ T ∈ x, ∃ u g, IsGate T u g ∧ g.width? = none) ∧ (∀ d, r = some d → ∀ T ∈ x, ∀ u g, IsGate T u g → ∃ e, g.width? = some e ∧ e ≤ d) ∧
    (r ≠ some 0 → ∃ u, t = some u ∧ ∃ T ∈ x, ∃ g, IsGate T u g ∧ g.width? = r) := by
  obtain ⟨l, hl⟩ := TVec.allM_total (f := fun T : Tube K => T.maxGateDiam) (l := x) fun T hT => by
    obtain ⟨r, t, e, -⟩ := C84_max_gate_diam (h.wf T hT)
    exact ⟨_, e⟩
  obtain ⟨l1, l2⟩ := TVec.allM_get hl
  have fwd : ∀ T ∈ x, ∃ p ∈ l, T.maxGateDiam = some p := by
    intro T hT
    obtain ⟨i, hi⟩ := List.mem_iff_getElem?.mp hT
    obtain ⟨p, hp, e⟩ := l2 i T hi
    exact ⟨p, List.mem_iff_getElem?.mpr ⟨i, hp⟩, e⟩
  have bwd : ∀ p ∈ l, ∃ T ∈ x, T.maxGateDiam = some p := by
    intro p hp
    obtain ⟨i, hi⟩ := List.mem_iff_getElem?.mp hp
    obtain ⟨T, hT⟩ := TVec.get_of_length l1.symm hi
    obtain ⟨q, hq, e⟩ := l2 i T hT
    rw [hi, Option.some.injEq] at hq
    exact ⟨T, List.mem_iff_getElem?.mpr ⟨i, hT⟩, hq ▸ e⟩
  have spec : ∀ T ∈ x, ∀ p, T.maxGateDiam = some p → (∃ g, IsGate T p.2 g ∧ g.width? = p.1) ∧ (p.1 = none ↔ ∃ u g, IsGate T u g ∧ g.width? = none) ∧
      ∀ d, p.1 = some d → ∀ u g, IsGate T u g → ∃ e, g.width? = some e ∧ e ≤ d := by
    intro T hT p hp
    obtain ⟨r, t, e, h1, h2, h3⟩ := C84_max_gate_diam (h.wf T hT)
    rw [hp, Option.some.injEq] at e
    subst e
    exact ⟨h1, h2, h3⟩
  obtain ⟨g1, g2, g3⟩ := gateLoop_spec l (some 0) none
  refine ⟨(gateLoop (some 0) none l).1, (gateLoop (some 0) none l).2, by unfold TuVec.maxGateDiam; rw [hl]; rfl, ?_, ?_, ?_⟩
  · rw [g2]
    constructor
    · rintro (hc | ⟨p, hp, hn⟩)
      · cases hc
      · obtain ⟨T, hT, e⟩ := bwd p hp
        exact ⟨T, hT, (spec T hT p e).2.1.mp hn⟩
    · rintro ⟨T, hT, hu⟩
      obtain ⟨p, hp, e⟩ := fwd T hT
      exact .inr ⟨p, hp, (spec T hT p e).2.1.mpr hu⟩
  · intro d hd T hT u g hug
    obtain ⟨p, hp, e⟩ := fwd T hT
    obtain ⟨w, hw, hwd⟩ := (g3 d hd).2 p hp
    obtain ⟨v, hv, hvw⟩ := (spec T hT p e).2.2 w hw u g hug
    exact ⟨v, hv, hvw.trans hwd⟩
  · intro h0
    rcases g1 with g1 | ⟨p, hp, g1⟩
    · rw [g1] at h0; exact absurd rfl h0
    · rw [g1]
      obtain ⟨T, hT, e⟩ := bwd p hp
      obtain ⟨g, hg, hw⟩ := (spec T hT p e).1
      exact ⟨p.2, rfl, T, hT, g, hg, hw⟩

/-- the instants where `diam` is exact: in a slice between the numbers next to its bounds, and, when asked, at the gates -/
def DiamInstant (nx pv : K → K) (gates : Bool) (T : Tube K) (t : K) : Prop :=
  (∃ s ∈ T.slices, nx s.lb ≤ t ∧ t ≤ pv s.ub) ∨ gates = true ∧ (t = T.t0 ∨ ∃ s ∈ T.slices, t = s.ub)

theorem diam_value {nx pv : K → K} {gates : Bool} {T : Tube K} (hT : T.WF) (hr : ∀ s ∈ T.slices, Roomy nx pv s) {d : Traj K} (h : diam nx pv gates T = some d) {t : K}
    (ht : DiamInstant nx pv gates T t) : ∃ w, (T.evalAt t).width? = some w ∧ d.evalAt t = some w := by
  obtain ⟨w0, k1, k2, k3, k4, k5⟩ := diam_eq hT hr h
  rcases ht with ⟨s, hs, t1, t2⟩ | ⟨hg, rfl | ⟨s, hs, rfl⟩⟩
  · obtain ⟨r1, r2, r3⟩ := hr s hs
    refine ⟨wd s.cod, ?_, ?_⟩
    · rw [Tube.evalAt_interior hT hs (r1.trans_le t1) (t2.trans_lt r3)]; exact k4 s hs
    · rw [evalAt_iff k1, k2]
      obtain ⟨⟨l1, l2, e⟩, -⟩ := diamPts_split (nx := nx) (pv := pv) (gates := gates) hs
      exact interp_const (l1 := (T.t0, w0) :: l1) (by rw [e]; rfl) t1 t2
  · exact ⟨w0, k3 hg, by rw [evalAt_iff k1, k2]; exact .inl (by simp)⟩
  · refine ⟨wd s.outG, ?_, ?_⟩
    · rw [Tube.evalAt_ub hT hs]; exact k5 hg s hs
    · rw [evalAt_iff k1, k2]; exact .inl (List.mem_cons_of_mem _ ((diamPts_split hs).2 hg))

/-- **C111**: the trajectory `diam(gates)` of a tube whose values are bounded exists and gives the diameter of the value of the tube, at each instant of a slice between the
numbers next to its bounds, and at the gates when asked. `nx`, `pv` give the next and the previous number of the machine. -/
theorem C111_diam_partial {nx pv : K → K} {gates : Bool} {T : Tube K} (hT : T.WF) (hr : ∀ s ∈ T.slices, Roomy nx pv s)
    (hb : ∀ s ∈ T.slices, s.cod.width? ≠ none ∧ s.inG.width? ≠ none ∧ s.outG.width? ≠ none) :
    ∃ d, diam nx pv gates T = some d ∧ TrajOk d ∧ ∀ t, DiamInstant nx pv gates T t → ∃ w, (T.evalAt t).width? = some w ∧ d.evalAt t = some w := by
  have ex : ∃ d, diam nx pv gates T = some d := by
    unfold diam
    cases hs : T.slices with
    | nil =>
      exfalso
      have := congrArg List.length hs
      simp only [Tube.slices, length_slicesFrom, List.length_nil, List.length_eq_zero_iff] at this
      exact hT.ne this
    | cons s ss =>
      rw [hs] at hb
      obtain ⟨w1, hw1⟩ := Option.ne_none_iff_exists'.mp (hb s (by simp)).1
      obtain ⟨w2, hw2⟩ := Option.ne_none_iff_exists'.mp (hb s (by simp)).2.1
      dsimp only
      cases gates with
      | true =>
        obtain ⟨d, hd⟩ := diamLoop_some nx pv true (s :: ss) (Traj.empty.set w2 s.lb) (fun q hq => (hb q hq).1) (fun q hq => (hb q hq).2.2)
        exact ⟨d, by rw [if_pos rfl, hw2]; exact hd⟩
      | false =>
        obtain ⟨d, hd⟩ := diamLoop_some nx pv false (s :: ss) (Traj.empty.set w1 s.lb) (fun q hq => (hb q hq).1) (fun q hq => (hb q hq).2.2)
        exact ⟨d, by rw [if_neg (by simp), hw1]; exact hd⟩
  obtain ⟨d, hd⟩ := ex
  obtain ⟨w0, k1, -⟩ := diam_eq hT hr hd
  exact ⟨d, hd, k1, fun t ht => diam_value hT hr hd ht⟩

theorem roomy_same {nx pv : K → K} {X Y : Tube K} (h : X.sameSlicing Y = true) {gates : Bool} {t : K} (h0 : X.t0 = Y.t0) (ht : DiamInstant nx pv gates X t) :
    DiamInstant nx pv gates Y t := by
  have hb := (sameSlicing_iff.mp h).slices
  have tr : ∀ s ∈ X.slices, ∃ s' ∈ Y.slices, s'.lb = s.lb ∧ s'.ub = s.ub := by
    intro s hs
    have : (s.lb, s.ub) ∈ Y.slices.map fun s => (s.lb, s.ub) := hb ▸ List.mem_map.mpr ⟨s, hs, rfl⟩
    obtain ⟨s', hs', e⟩ := List.mem_map.mp this
    rw [Prod.mk.injEq] at e
    exact ⟨s', hs', e.1, e.2⟩
  rcases ht with ⟨s, hs, t1, t2⟩ | ⟨hg, ht | ⟨s, hs, ht⟩⟩
  · obtain ⟨s', hs', e1, e2⟩ := tr s hs
    exact .inl ⟨s', hs', e1 ▸ t1, e2 ▸ t2⟩
  · exact .inr ⟨hg, .inl (ht.trans h0)⟩
  · obtain ⟨s', hs', e1, e2⟩ := tr s hs
    exact .inr ⟨hg, .inr ⟨s', hs', ht.trans e2.symm⟩⟩

/-- **C111**: when the components have the same slicing and bounded values, the trajectory `diag(i, j)` exists and gives the square root of the sum of the squares of the
diameters of the components `i` to `j`, at the same instants as `diam`. -/
theorem C111_diag_partial {nx pv sqrt : K → K} {gates : Bool} {x : List (Tube K)} {n : Nat} {a b : K} (h : VecOver x n a b)
    (hs : ∀ T ∈ x, ∀ T' ∈ x, T.sameSlicing T' = true) (hr : ∀ T ∈ x, ∀ s ∈ T.slices, Roomy nx pv s)
    (hb : ∀ T ∈ x, ∀ s ∈ T.slices, s.cod.width? ≠ none ∧ s.inG.width? ≠ none ∧ s.outG.width? ≠ none) {i j : Nat} (hij : i ≤ j) (hj : j < n) :
    ∃ d, diag nx pv sqrt gates x i j = some d ∧ TrajOk d ∧ ∀ t, (∀ T ∈ x, DiamInstant nx pv gates T t) →
      ∃ ws : List K, (TuVec.eval x t).map Itv.width? = ws.map some ∧ d.evalAt t = some (sqrt (((ws.drop i).take (j - i + 1)).map fun w => w ^ 2).sum) := by
  obtain ⟨ds, hds⟩ := TVec.allM_total (f := diam nx pv gates) (l := x) fun T hT => by
    obtain ⟨d, hd, -⟩ := C111_diam_partial (gates := gates) (h.wf T hT) (hr T hT) (hb T hT)
    exact ⟨d, hd⟩
  obtain ⟨l1, l2⟩ := TVec.allM_get hds
  cases x with
  | nil => exact absurd rfl (tdomain_iff.mp h.dom).1
  | cons T0 l =>
    obtain ⟨d0, hd0, e0⟩ := l2 0 T0 rfl
    obtain ⟨ds', rfl⟩ : ∃ ds', ds = d0 :: ds' := by
      cases ds with
      | nil => simp at hd0
      | cons c ds' => simp only [List.getElem?_cons_zero, Option.some.injEq] at hd0; exact ⟨ds', by rw [hd0]⟩
    have bwd : ∀ d ∈ d0 :: ds', ∃ T ∈ T0 :: l, diam nx pv gates T = some d := by
      intro d hd
      obtain ⟨k, hk⟩ := List.mem_iff_getElem?.mp hd
      obtain ⟨T, hT⟩ := TVec.get_of_length l1.symm hk
      obtain ⟨q, hq, e⟩ := l2 k T hT
      rw [hk, Option.some.injEq] at hq
      exact ⟨T, List.mem_iff_getElem?.mpr ⟨k, hT⟩, hq ▸ e⟩
    have keys : ∀ T ∈ T0 :: l, ∀ d, diam nx pv gates T = some d → d.pts.map Prod.fst = a :: diamKeys nx pv gates (T0.slices.map fun s => (s.lb, s.ub)) := by
      intro T hT d hd
      obtain ⟨w0, -, k2, -⟩ := diam_eq (h.wf T hT) (hr T hT) hd
      rw [k2, List.map_cons, diamPts_keys, (sameSlicing_iff.mp (hs T hT T0 (by simp))).slices, ((tdomain_iff.mp h.dom).2 T hT).1]
    have hts : TVec.firstKeys (d0 :: ds') = a :: diamKeys nx pv gates (T0.slices.map fun s => (s.lb, s.ub)) := keys T0 (by simp) d0 e0
    have hok0 : TrajOk d0 := by obtain ⟨w0, k1, -⟩ := diam_eq (h.wf T0 (by simp)) (hr T0 (by simp)) e0; exact k1
    have hsort : (a :: diamKeys nx pv gates (T0.slices.map fun s => (s.lb, s.ub))).Pairwise (· < ·) := by
      rw [← hts]; exact sortedPts_iff.mp hok0.sorted
    have hev : ∀ t ∈ a :: diamKeys nx pv gates (T0.slices.map fun s => (s.lb, s.ub)), ∀ d ∈ d0 :: ds', ∃ v, d.evalAt t = some v := by
      intro t ht d hd
      obtain ⟨T, hT, e⟩ := bwd d hd
      rw [← keys T hT d e] at ht
      obtain ⟨p, hp, rfl⟩ := List.mem_map.mp ht
      obtain ⟨w0, k1, -⟩ := diam_eq (h.wf T hT) (hr T hT) e
      exact ⟨p.2, (evalAt_iff k1).mpr (.inl hp)⟩
    have hl := diagLoop_eq sqrt (d0 :: ds') i j _ Traj.empty hev
    generalize hG : (fun t => sqrt (((((d0 :: ds').map fun d => (d.evalAt t).getD 0).drop i).take (j - i + 1)).map fun a => a ^ 2).sum) = G at hl
    obtain ⟨f1, f2⟩ := foldl_set (TVec.ptsOf G (a :: diamKeys nx pv gates (T0.slices.map fun s => (s.lb, s.ub)))) Traj.empty trajOk_empty
      (by simpa [Traj.empty] using TVec.sorted_ptsOf hsort G)
    simp only [Traj.empty, List.nil_append] at f2
    -- the values of the diameters at the right instants
    have val : ∀ t, (∀ T ∈ T0 :: l, DiamInstant nx pv gates T t) → (d0 :: ds').map (fun d => (d.evalAt t).getD 0) = (T0 :: l).map fun T => wd (T.evalAt t) := by
      intro t ht
      apply List.ext_getElem?
      intro k
      rw [List.getElem?_map, List.getElem?_map]
      cases hk : (T0 :: l)[k]? with
      | none =>
        rw [List.getElem?_eq_none_iff] at hk
        rw [List.getElem?_eq_none (by omega)]; rfl
      | some T =>
        obtain ⟨d, hd, e⟩ := l2 k T hk
        have hT := List.mem_iff_getElem?.mpr ⟨k, hk⟩
        obtain ⟨w, w1, w2⟩ := diam_value (h.wf T hT) (hr T hT) e (ht T hT)
        rw [hd]
        simp [w2, wd, w1]
    refine ⟨_, by unfold diag; rw [if_pos ⟨by rw [h.size]; exact hj, hij⟩, hds, Option.bind_some, hts]; exact hl, f1, fun t ht => ?_⟩
    refine ⟨(T0 :: l).map fun T => wd (T.evalAt t), ?_, ?_⟩
    · unfold TuVec.eval
      rw [List.map_map, List.map_map]
      refine List.map_congr_left fun T hT => ?_
      obtain ⟨d, hd, -⟩ := C111_diam_partial (gates := gates) (h.wf T hT) (hr T hT) (hb T hT)
      obtain ⟨w, w1, -⟩ := diam_value (h.wf T hT) (hr T hT) hd (ht T hT)
      simp [wd, w1]
    · rw [← val t ht, evalAt_iff f1]
      rw [show (sqrt (((((d0 :: ds').map fun d => (d.evalAt t).getD 0).drop i).take (j - i + 1)).map fun w => w ^ 2).sum) = G t from by rw [← hG]]
      rw [show ((TVec.ptsOf G (a :: diamKeys nx pv gates (T0.slices.map fun s => (s.lb, s.ub)))).foldl (fun y p => y.set p.2 p.1) Traj.empty).pts =
        TVec.ptsOf G (a :: diamKeys nx pv gates (T0.slices.map fun s => (s.lb, s.ub))) from f2]
      have mem : t ∈ a :: diamKeys nx pv gates (T0.slices.map fun s => (s.lb, s.ub)) →
          Interp (TVec.ptsOf G (a :: diamKeys nx pv gates (T0.slices.map fun s => (s.lb, s.ub)))) t (G t) := fun hm => .inl (List.mem_map.mpr ⟨t, hm, rfl⟩)
      obtain ⟨w0, -, k2, -⟩ := diam_eq (h.wf T0 (by simp)) (hr T0 (by simp)) e0
      rcases ht T0 (by simp) with ⟨s, hs', t1, t2⟩ | ⟨hg, ht0 | ⟨s, hs', ht0⟩⟩
      · obtain ⟨⟨m1, m2, e⟩, -⟩ := diamPts_split (nx := nx) (pv := pv) (gates := gates) hs'
        have r2 : nx s.lb ≤ pv s.ub := (hr T0 (by simp) s hs').2.1.le
        have ek : diamKeys nx pv gates (T0.slices.map fun s => (s.lb, s.ub)) = m1.map Prod.fst ++ nx s.lb :: pv s.ub :: m2.map Prod.fst := by
          rw [← diamPts_keys, e]; simp
        have same : ∀ u, nx s.lb ≤ u → u ≤ pv s.ub → G u = G t := by
          intro u u1 u2
          have hu : ∀ T ∈ T0 :: l, DiamInstant nx pv gates T u := fun T hT =>
            roomy_same (hs T0 (by simp) T hT) (((tdomain_iff.mp h.dom).2 T0 (by simp)).1.trans ((tdomain_iff.mp h.dom).2 T hT).1.symm) (.inl ⟨s, hs', u1, u2⟩)
          have : (T0 :: l).map (fun T => wd (T.evalAt u)) = (T0 :: l).map fun T => wd (T.evalAt t) := by
            refine List.map_congr_left fun T hT => ?_
            have hbd := (sameSlicing_iff.mp (hs T0 (by simp) T hT)).slices
            have : (s.lb, s.ub) ∈ T.slices.map fun s => (s.lb, s.ub) := hbd ▸ List.mem_map.mpr ⟨s, hs', rfl⟩
            obtain ⟨s', hs2, e'⟩ := List.mem_map.mp this
            rw [Prod.mk.injEq] at e'
            obtain ⟨q1, -, q3⟩ := hr T0 (by simp) s hs'
            rw [Tube.evalAt_interior (h.wf T hT) hs2 (e'.1 ▸ q1.trans_le u1) (e'.2 ▸ u2.trans_lt q3),
              Tube.evalAt_interior (h.wf T hT) hs2 (e'.1 ▸ q1.trans_le t1) (e'.2 ▸ t2.trans_lt q3)]
          have e2 : (d0 :: ds').map (fun d => (d.evalAt u).getD 0) = (d0 :: ds').map fun d => (d.evalAt t).getD 0 := by rw [val u hu, val t ht, this]
          rw [← hG]
          dsimp only
          rw [e2]
        refine interp_const (l1 := (a, G a) :: TVec.ptsOf G (m1.map Prod.fst)) (l2 := TVec.ptsOf G (m2.map Prod.fst)) (a := nx s.lb) (b := pv s.ub) ?_ t1 t2
        rw [ek]
        simp only [TVec.ptsOf, List.map_cons, List.map_append, List.cons_append]
        rw [same _ le_rfl r2, same _ r2 le_rfl]
      · exact mem (by rw [ht0, ((tdomain_iff.mp h.dom).2 T0 (by simp)).1]; simp)
      · refine mem (List.mem_cons_of_mem _ ?_)
        rw [← diamPts_keys, ht0]
        exact List.mem_map.mpr ⟨_, (diamPts_split (nx := nx) (pv := pv) hs').2 hg, rfl⟩

end contains

/-! ### Counter-examples and examples -/

/-- the tube of one slice over `[0,2]` whose values are in `X` -/
def vecTube (X : Itv ℚ) : Tube ℚ := ⟨0, 2, X, [⟨0, 2, X, X⟩]⟩

theorem vecTube_wf (X : Itv ℚ) : (vecTube X).WF := ⟨by simp [vecTube], rfl, by norm_num, rfl⟩

theorem vecTube_slices (X : Itv ℚ) : (vecTube X).slices = [⟨0, 2, X, X, X⟩] := rfl

theorem vecTube_gates (X : Itv ℚ) : (vecTube X).GatesInEnvelopes := by
  intro s hs
  rw [vecTube_slices, List.mem_singleton] at hs
  subst hs
  exact ⟨le_rfl, le_rfl⟩

theorem vecTube_encloses {X : Itv ℚ} {c : ℚ} (h : c ∈ X) : (vecTube X).Encloses fun _ => c := by
  intro s hs
  rw [vecTube_slices, List.mem_singleton] at hs
  subst hs
  exact ⟨h, h, fun _ _ _ => h⟩

theorem vecTubes_over (X Y : Itv ℚ) : VecOver [vecTube X, vecTube Y] 2 0 2 :=
  ⟨rfl, fun T hT => by simp only [List.mem_cons, List.not_mem_nil, or_false] at hT; rcases hT with rfl | rfl <;> exact vecTube_wf _, by simp [tdomain, vecTube]⟩

/-- **C111** fails for `x *= x[0]`: the second component is multiplied by the new value of the first one. The vector contains the function of components 2 and 3, the result does
not contain the function of components 4 and 6. -/
theorem C111_assign_scalar_fails : ∃ (x z : List (Tube ℚ)) (T0 : Tube ℚ), VecOver x 2 0 2 ∧ x[0]? = some T0 ∧ T0.GatesInEnvelopes ∧ (∀ T ∈ x, T.sameSlicing T0 = true) ∧
    InVector x (fun i _ => if i = 0 then 2 else 3) ∧ assignScal (IArith.exact ℚ).mul x (.own 0) = some z ∧ ¬ InVector z (fun i _ => if i = 0 then 4 else 6) := by
  refine ⟨[vecTube (Itv.point 2), vecTube (Itv.point 3)], [vecTube (Itv.point 4), vecTube (Itv.point 12)], _, vecTubes_over _ _, rfl, vecTube_gates _, by decide +kernel, ?_,
    by decide +kernel, ?_⟩
  · intro i T hT
    match i with
    | 0 => simp only [List.getElem?_cons_zero, Option.some.injEq] at hT; subst hT; exact vecTube_encloses (Itv.mem_point.mpr rfl)
    | 1 => simp only [List.getElem?_cons_succ, List.getElem?_cons_zero, Option.some.injEq] at hT; subst hT; exact vecTube_encloses (Itv.mem_point.mpr rfl)
    | i + 2 => simp at hT
  · intro h
    have := (h 1 _ rfl ⟨0, 2, Itv.point 12, Itv.point 12, Itv.point 12⟩ (by rw [vecTube_slices]; simp)).1
    rw [Itv.mem_point] at this
    norm_num at this

/-- **C111** fails for `max_gate_diam(t)` when all the gates are points: `t` is not set. -/
theorem C111_max_gate_diam_fails : ∃ x : List (Tube ℚ), VecOver x 2 0 2 ∧ TuVec.maxGateDiam x = some (some 0, none) :=
  ⟨[vecTube (Itv.point 2), vecTube (Itv.point 3)], vecTubes_over _ _, by decide +kernel⟩

/-- **C111** fails for `diam(true)` on a slice between two consecutive numbers of the machine: the diameter of the first gate is replaced with the one of the envelope. -/
theorem C111_diam_fails : ∃ (nx pv : ℚ → ℚ) (T : Tube ℚ) (d : Traj ℚ), T.WF ∧ T.GatesInEnvelopes ∧ nx T.t0 = T.tf ∧ pv T.tf = T.t0 ∧ diam nx pv true T = some d ∧
    T.evalAt T.t0 = Itv.point 0 ∧ d.evalAt T.t0 = some 5 := by
  refine ⟨(· + 1), (· - 1), ⟨0, 1, Itv.point 0, [⟨0, 1, Itv.icc 0 5, Itv.point 1⟩]⟩, ⟨[(0, 5), (1, 0)], Itv.icc 0 1, Itv.icc 0 5⟩, ⟨by simp, rfl, by norm_num, rfl⟩, ?_, by norm_num,
    by norm_num, by decide +kernel, by decide +kernel, by decide +kernel⟩
  intro s hs
  simp only [Tube.slices, slicesFrom_cons, slicesFrom_nil, List.mem_singleton] at hs
  subst hs
  decide +kernel

/-- the machine numbers of the example: the multiples of 1/8 -/
def nx8 (a : ℚ) : ℚ := a + 1 / 8
/-- the machine numbers of the example: the multiples of 1/8 -/
def pv8 (a : ℚ) : ℚ := a - 1 / 8

/-- a tube of two slices whose values are in `X`, then in `Y` -/
def vecTube2 (X Y : Itv ℚ) : Tube ℚ := ⟨0, 2, X, [⟨0, 1, X, X ⊓ Y⟩, ⟨1, 2, Y, Y⟩]⟩

/-- **C111** fails for `diag()` when the slicings differ: only the instants of the first component are used. The second component has the diameter 3 at 3/2 and the first one
is a point; the diagonal is not 3. -/
theorem C111_diag_fails : ∃ (x : List (Tube ℚ)) (sqrt : ℚ → ℚ) (d : Traj ℚ), VecOver x 2 0 2 ∧ (∀ T ∈ x, ∀ s ∈ T.slices, Roomy nx8 pv8 s) ∧ sqrt 0 = 0 ∧ sqrt 9 = 3 ∧
    diag nx8 pv8 sqrt true x 0 1 = some d ∧ (TuVec.eval x (3 / 2)).map Itv.width? = [some 0, some 3] ∧ d.evalAt (3 / 2) ≠ some 3 := by
  refine ⟨[vecTube (Itv.point 0), vecTube2 (Itv.point 0) (Itv.icc 0 3)], fun a => if a = 9 then 3 else 0,
    ⟨[(0, 0), (1 / 8, 0), (15 / 8, 3), (2, 3)], Itv.icc 0 2, Itv.icc 0 3⟩, ⟨rfl, ?_, by decide +kernel⟩, ?_, by norm_num, by norm_num, by decide +kernel, by decide +kernel, by decide +kernel⟩
  · intro T hT
    simp only [List.mem_cons, List.not_mem_nil, or_false] at hT
    rcases hT with rfl | rfl
    · exact vecTube_wf _
    · exact ⟨by simp [vecTube2], rfl, by norm_num, rfl, by norm_num, rfl⟩
  · intro T hT s hs
    simp only [List.mem_cons, List.not_mem_nil, or_false] at hT
    rcases hT with rfl | rfl
    · rw [vecTube_slices, List.mem_singleton] at hs
      subst hs
      unfold Roomy nx8 pv8; norm_num
    · simp only [vecTube2, Tube.slices, slicesFrom_cons, slicesFrom_nil, List.mem_cons, List.not_mem_nil, or_false] at hs
      rcases hs with rfl | rfl <;> (unfold Roomy nx8 pv8; norm_num)

/-- the hypotheses of the operators are met: a sum of two vectors with different slicings -/
example : ∃ y, bin (IArith.exact ℚ).add [vecTube (Itv.icc 0 1), vecTube (Itv.icc 2 3)] [vecTube2 (Itv.icc 0 1) (Itv.icc 1 2), vecTube (Itv.icc 5 6)] = some y ∧
    TuVec.eval y (3 / 2) = [Itv.icc 1 3, Itv.icc 7 9] := by
  refine ⟨_, rfl, ?_⟩
  decide +kernel

/-- the hypotheses of `bisect` are met: the first component is cut -/
example : let x := [vecTube (Itv.icc 0 4), vecTube (Itv.icc 2 3)]
    ∃ P Q, (∀ T ∈ x, T.GatesInEnvelopes) ∧ List.Forall₂ (· ≤ ·) P (TuVec.eval x 1) ∧ List.Forall₂ (· ≤ ·) Q (TuVec.eval x 1) ∧ P = [Itv.icc 0 2, Itv.icc 2 3] ∧ Q = [Itv.icc 2 4, Itv.icc 2 3] := by
  refine ⟨[Itv.icc 0 2, Itv.icc 2 3], [Itv.icc 2 4, Itv.icc 2 3], ?_, ?_, ?_, rfl, rfl⟩
  · intro T hT
    simp only [List.mem_cons, List.not_mem_nil, or_false] at hT
    rcases hT with rfl | rfl <;> exact vecTube_gates _
  · exact .cons (by decide +kernel) (.cons (by decide +kernel) .nil)
  · exact .cons (by decide +kernel) (.cons (by decide +kernel) .nil)

/-- the hypotheses of `diag` are met, and the result is not trivial -/
example : let x := [vecTube (Itv.icc 0 4), vecTube (Itv.icc 2 5)]
    (∀ T ∈ x, ∀ T' ∈ x, T.sameSlicing T' = true) ∧ (diag nx8 pv8 (fun a => if a = 25 then 5 else 0) true x 0 1).bind (fun d => d.evalAt (1 / 3)) = some 5 := by
  decide +kernel

end Codac.Props
