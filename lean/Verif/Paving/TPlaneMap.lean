import Verif.Paving.TPlaneProof
import Verif.Paving.DegreeMap
import Verif.Sivia.Ibex
import Mathlib.Algebra.Ring.Hom.Defs

/-!
# Detections and proofs of loops under a change of numbers

With exact arithmetic and positions only, an increasing map which keeps the operations (from the rational numbers to the real numbers) does not change the
result of `compute_loops`.
-/

set_option linter.unusedSectionVars false

namespace Codac
open Paving

variable {K K' : Type*} [Field K] [LinearOrder K] [IsStrictOrderedRing K] [Field K'] [LinearOrder K'] [IsStrictOrderedRing K']
variable (φ : K →+* K') (hφ : StrictMono φ)

/-! ### Intervals -/

namespace Itv

theorem mapB_le {I J : Itv K} : I.mapB φ hφ ≤ J.mapB φ hφ ↔ I ≤ J := by
  rw [← inf_eq_left, ← mapB_inf, mapB_inj, inf_eq_left]

theorem mapB_top : (⊤ : Itv K).mapB φ hφ = ⊤ := rfl

theorem mapB_posR : (posR : Itv K).mapB φ hφ = posR := by simp [posR, mapB]
theorem mapB_negR : (negR : Itv K).mapB φ hφ = negR := by simp [negR, mapB]

theorem mapB_strictSub (X Y : Itv K) : (X.mapB φ hφ).strictSub (Y.mapB φ hφ) = X.strictSub Y := by
  unfold strictSub
  rw [Bool.eq_iff_iff]
  simp only [Bool.and_eq_true, decide_eq_true_eq, mapB_le, ne_eq, mapB_inj]

theorem mapB_add (I J : Itv K) : (I.add J).mapB φ hφ = (I.mapB φ hφ).add (J.mapB φ hφ) := by
  cases I with
  | empty => rfl
  | mk l u p => cases J with
    | empty => rfl
    | mk l' u' p' =>
      change (ofBounds _ _).mapB _ hφ = ofBounds _ _
      rw [mapB_ofBounds]
      congr 1
      · cases l <;> cases l' <;> simp [addB]
      · cases u <;> cases u' <;> simp [addB]

theorem mapB_neg (I : Itv K) : I.neg.mapB φ hφ = (I.mapB φ hφ).neg := by
  cases I with
  | empty => rfl
  | mk l u p =>
    change (ofBounds _ _).mapB _ hφ = ofBounds _ _
    rw [mapB_ofBounds]
    congr 1
    · cases u <;> simp [negB]
    · cases l <;> simp [negB]

theorem mapB_sub (I J : Itv K) : (I.sub J).mapB φ hφ = (I.mapB φ hφ).sub (J.mapB φ hφ) := by
  unfold Itv.sub
  rw [mapB_add, mapB_neg]

theorem mapB_cut (r : K) (I : Itv K) : (I.mapB φ hφ).cut (φ r) = φ (I.cut r) := by
  rcases I with _ | ⟨_ | a, _ | b, p⟩ <;> simp [cut, mapB]

theorem mapB_width (I : Itv K) : (I.mapB φ hφ).width = φ I.width := by
  rcases I with _ | ⟨_ | a, _ | b, p⟩ <;> simp [width, mapB]

end Itv

/-! ### Bisection -/

theorem mapB_largestIdx (X : Box K) : largestIdx (Box.mapB φ hφ X) = largestIdx X := by
  induction X with
  | nil => rfl
  | cons I X ih =>
    change (if (List.map (Itv.mapB φ hφ) X).all (fun J => decide (J.width ≤ (I.mapB φ hφ).width)) then 0 else largestIdx (Box.mapB φ hφ X) + 1) = _
    rw [largestIdx, ih, List.all_map]
    have : ((fun J : Itv K' => decide (J.width ≤ (I.mapB φ hφ).width)) ∘ Itv.mapB φ hφ) = fun J => decide (J.width ≤ I.width) := by
      funext J
      simp only [Function.comp_apply, Itv.mapB_width, hφ.le_iff_le]
    rw [this]

theorem mapB_getD (X : Box K) (i : Nat) : (Box.mapB φ hφ X).getD i ⊥ = (X.getD i ⊥).mapB φ hφ := by
  unfold Box.mapB
  rw [List.getD_eq_getElem?_getD, List.getD_eq_getElem?_getD, List.getElem?_map]
  cases X[i]? <;> rfl

theorem mapB_largestFirst (r : K) (X : Box K) :
    largestFirst (φ r) (Box.mapB φ hφ X) = (Box.mapB φ hφ (largestFirst r X).1, Box.mapB φ hφ (largestFirst r X).2) := by
  unfold largestFirst
  dsimp only
  rw [mapB_largestIdx, mapB_getD, Itv.mapB_cut]
  have e1 : ∀ (m : K) (I : Itv K), (I.mapB φ hφ).below (φ m) = (I.below m).mapB φ hφ := fun m I => by
    unfold Itv.below
    rw [Itv.mapB_inf, Itv.mapB_ofBounds]; rfl
  have e2 : ∀ (m : K) (I : Itv K), (I.mapB φ hφ).above (φ m) = (I.above m).mapB φ hφ := fun m I => by
    unfold Itv.above
    rw [Itv.mapB_inf, Itv.mapB_ofBounds]; rfl
  rw [e1, e2]
  unfold Box.mapB
  rw [List.map_set, List.map_set]

/-! ### Tubes -/

/-- the image of a slice -/
def Slice.mapB (s : Slice K) : Slice K' := ⟨φ s.lb, φ s.ub, s.cod.mapB φ hφ, s.inG.mapB φ hφ, s.outG.mapB φ hφ⟩

theorem Slice.mapB_lb (s : Slice K) : (s.mapB φ hφ).lb = φ s.lb := rfl
theorem Slice.mapB_ub (s : Slice K) : (s.mapB φ hφ).ub = φ s.ub := rfl
theorem Slice.mapB_cod (s : Slice K) : (s.mapB φ hφ).cod = s.cod.mapB φ hφ := rfl

/-- the image of a stored slice -/
def Cell.mapB (c : Cell K) : Cell K' := ⟨φ c.lb, φ c.ub, c.cod.mapB φ hφ, c.out.mapB φ hφ⟩

/-- the image of a tube -/
def Tube.mapB (T : Tube K) : Tube K' := ⟨φ T.t0, φ T.tf, T.g0.mapB φ hφ, T.cells.map (Cell.mapB φ hφ)⟩

theorem mapB_slicesFrom (g : Itv K) (cs : List (Cell K)) :
    slicesFrom (g.mapB φ hφ) (cs.map (Cell.mapB φ hφ)) = (slicesFrom g cs).map (Slice.mapB φ hφ) := by
  induction cs generalizing g with
  | nil => rfl
  | cons c cs ih =>
    rw [List.map_cons, slicesFrom_cons, slicesFrom_cons, List.map_cons, ← ih]
    rfl

theorem Tube.mapB_slices (T : Tube K) : (T.mapB φ hφ).slices = T.slices.map (Slice.mapB φ hφ) := mapB_slicesFrom φ hφ _ _

theorem mapB_seek (t : K) (l : List (Slice K)) : seek (φ t) (l.map (Slice.mapB φ hφ)) = (seek t l).map (Slice.mapB φ hφ) := by
  induction l with
  | nil => rfl
  | cons s l ih =>
    cases l with
    | nil => rfl
    | cons s' l =>
      rw [List.map_cons, List.map_cons, seek, seek, Slice.mapB_ub]
      by_cases h : t < s.ub
      · rw [if_pos h, if_pos (show φ t < φ s.ub from hφ h)]
        rfl
      · rw [if_neg h, if_neg (show ¬ φ t < φ s.ub from fun h' => h (hφ.lt_iff_lt.1 h'))]
        exact ih

theorem mapB_hullUpTo (b : K) (l : List (Slice K)) : hullUpTo (φ b) (l.map (Slice.mapB φ hφ)) = (hullUpTo b l).mapB φ hφ := by
  have key : ∀ s : Slice K, (if φ s.lb ≠ φ b then s.cod.mapB φ hφ else ⊥) = (if s.lb ≠ b then s.cod else ⊥ : Itv K).mapB φ hφ := by
    intro s
    by_cases h : s.lb = b
    · rw [if_neg (not_not.2 h), if_neg (not_not.2 (congrArg φ h))]; rfl
    · rw [if_pos h, if_pos (fun h' => h (hφ.injective h'))]
  induction l with
  | nil => rfl
  | cons s l ih =>
    cases l with
    | nil => exact key s
    | cons s' l =>
      rw [List.map_cons, List.map_cons, hullUpTo, hullUpTo, Slice.mapB_ub, Slice.mapB_lb, Slice.mapB_cod]
      by_cases h : b < s.ub
      · rw [if_pos h, if_pos (show φ b < φ s.ub from hφ h)]
        exact key s
      · rw [if_neg h, if_neg (show ¬ φ b < φ s.ub from fun h' => h (hφ.lt_iff_lt.1 h')), Itv.mapB_sup, ← ih]
        rfl

theorem Slice.mapB_evalAt (s : Slice K) (t : K) : (s.mapB φ hφ).evalAt (φ t) = (s.evalAt t).mapB φ hφ := by
  unfold Slice.evalAt Slice.mapB
  simp only [hφ.le_iff_le, hφ.injective.eq_iff]
  split_ifs <;> rfl

theorem Tube.mapB_evalAt (T : Tube K) (t : K) : (T.mapB φ hφ).evalAt (φ t) = (T.evalAt t).mapB φ hφ := by
  unfold Tube.evalAt
  rw [Tube.mapB_slices, mapB_seek, List.head?_map]
  simp only [Tube.mapB, hφ.le_iff_le]
  split_ifs
  · cases (seek t T.slices).head? with
    | none => rfl
    | some s => exact Slice.mapB_evalAt φ hφ s t
  · rfl

theorem Tube.mapB_evalItv (T : Tube K) (I : Itv K) : (T.mapB φ hφ).evalItv (I.mapB φ hφ) = (T.evalItv I).mapB φ hφ := by
  rcases I with _ | ⟨_ | a, _ | b, p⟩
  · rfl
  · rfl
  · rfl
  · rfl
  · change (if φ a < φ T.t0 ∨ φ b > φ T.tf then ⊤ else if φ a = φ b then (T.mapB φ hφ).evalAt (φ a) else hullUpTo (φ b) (seek (φ a) (T.mapB φ hφ).slices)) = _
    rw [Tube.mapB_evalAt, Tube.mapB_slices, mapB_seek, mapB_hullUpTo, Tube.evalItv]
    simp only [gt_iff_lt, hφ.lt_iff_lt, hφ.injective.eq_iff]
    split_ifs <;> rfl

theorem mapB_ptOpt (o : Option K) : ptOpt (o.map φ) = (ptOpt o).mapB φ hφ := by cases o <;> rfl

theorem Slice.mapB_evalBound {bnd : Itv K → Option K} {bnd' : Itv K' → Option K'} (hb : ∀ I, bnd' (I.mapB φ hφ) = (bnd I).map φ) (s : Slice K) (a b : K) :
    (s.mapB φ hφ).evalBound bnd' (φ a) (φ b) = (s.evalBound bnd a b).mapB φ hφ := by
  unfold Slice.evalBound Slice.mapB
  rw [Itv.mapB_sup, Itv.mapB_sup]
  simp only [hφ.le_iff_le, hφ.injective.eq_iff, hb, mapB_ptOpt φ hφ]
  congr 1
  · congr 1
    · split_ifs <;> rfl
    · split_ifs <;> rfl
  · split_ifs <;> rfl

theorem mapB_evalBoundLoop {bnd : Itv K → Option K} {bnd' : Itv K' → Option K'} (hb : ∀ I, bnd' (I.mapB φ hφ) = (bnd I).map φ) (a b : K)
    (l : List (Slice K)) (acc : Itv K) :
    evalBoundLoop bnd' (φ a) (φ b) (l.map (Slice.mapB φ hφ)) (acc.mapB φ hφ) = (evalBoundLoop bnd a b l acc).mapB φ hφ := by
  induction l generalizing acc with
  | nil => rfl
  | cons s l ih =>
    rw [List.map_cons, evalBoundLoop, evalBoundLoop, Slice.mapB_lb, Slice.mapB_ub]
    by_cases h : s.lb ≤ b
    · rw [if_pos h, if_pos (show φ s.lb ≤ φ b from hφ.monotone h), ← ih, Itv.mapB_sup]
      congr 2
      rw [← Slice.mapB_evalBound φ hφ hb, hφ.monotone.map_max, hφ.monotone.map_min]
    · rw [if_neg h, if_neg (show ¬ φ s.lb ≤ φ b from fun h' => h (hφ.le_iff_le.1 h'))]

theorem Tube.mapB_evalBound {bnd : Itv K → Option K} {bnd' : Itv K' → Option K'} (hb : ∀ I, bnd' (I.mapB φ hφ) = (bnd I).map φ) (T : Tube K) (a b : K) :
    (T.mapB φ hφ).evalBound bnd' (φ a) (φ b) = (T.evalBound bnd a b).mapB φ hφ := by
  unfold Tube.evalBound
  rw [Tube.mapB_slices, mapB_seek]
  exact mapB_evalBoundLoop φ hφ hb a b _ ⊥

/-! ### The plane -/

/-- positions only, exact arithmetic -/
def exactPlane (precision : K) (p : Fin 2 → Tube K) : TPlaneArgs K := ⟨IArith.exact K, fun a b => a - b, precision, p, none⟩

theorem mapB_encBound (u w : Itv K) : encBound (fun a b => a - b) (u.mapB φ hφ) (w.mapB φ hφ) = (encBound (fun a b => a - b) u w).mapB φ hφ := by
  rcases u with _ | ⟨_ | a, _ | b, p⟩ <;> rcases w with _ | ⟨_ | c, _ | d, q⟩ <;> try rfl
  change Itv.point (φ a - φ d) ⊔ Itv.point (φ b - φ c) = _
  rw [← map_sub, ← map_sub, ← Itv.mapB_point hφ, ← Itv.mapB_point hφ, ← Itv.mapB_sup]
  rfl

variable (prec : K) (p : Fin 2 → Tube K)

/-- the image of the arguments -/
def exactPlaneB : TPlaneArgs K' := exactPlane (φ prec) fun i => (p i).mapB φ hφ

theorem mapB_primitiveOut (a1 b1 a2 b2 : K) :
    (exactPlaneB φ hφ prec p).primitiveOut (φ a1) (φ b1) (φ a2) (φ b2) = (exactPlane prec p).primitiveOut a1 b1 a2 b2 := by
  have e1 : ∀ i, (exactPlaneB φ hφ prec p).encFirst (φ a1) (φ b1) (φ a2) (φ b2) i = ((exactPlane prec p).encFirst a1 b1 a2 b2 i).mapB φ hφ := fun i => by
    unfold TPlaneArgs.encFirst
    change encBound (fun a b => a - b) (((p i).mapB φ hφ).evalBound _ _ _) (((p i).mapB φ hφ).evalBound _ _ _) = _
    rw [Tube.mapB_evalBound φ hφ (bnd := Itv.lb?) (Itv.mapB_lb? hφ), Tube.mapB_evalBound φ hφ (bnd := Itv.ub?) (Itv.mapB_ub? hφ), mapB_encBound]
    rfl
  have e2 : ∀ i, (exactPlaneB φ hφ prec p).encSecond (φ a1) (φ b1) (φ a2) (φ b2) i = ((exactPlane prec p).encSecond a1 b1 a2 b2 i).mapB φ hφ := fun i => by
    unfold TPlaneArgs.encSecond
    change encBound (fun a b => a - b) (((p i).mapB φ hφ).evalBound _ _ _) (((p i).mapB φ hφ).evalBound _ _ _) = _
    rw [Tube.mapB_evalBound φ hφ (bnd := Itv.lb?) (Itv.mapB_lb? hφ), Tube.mapB_evalBound φ hφ (bnd := Itv.ub?) (Itv.mapB_ub? hφ), mapB_encBound]
    rfl
  have e3 : (exactPlaneB φ hφ prec p).A.sub (.icc (φ a1) (φ b1)) (.icc (φ a2) (φ b2)) = ((exactPlane prec p).A.sub (.icc a1 b1) (.icc a2 b2)).mapB φ hφ := by
    rw [← Itv.mapB_icc hφ, ← Itv.mapB_icc hφ]
    exact (Itv.mapB_sub φ hφ _ _).symm
  unfold TPlaneArgs.primitiveOut
  rw [e1, e1, e2, e2, e3, ← Itv.mapB_posR φ hφ, ← Itv.mapB_negR φ hφ]
  simp only [Itv.mapB_strictSub]

theorem mapB_classify (X : Box K) : (exactPlaneB φ hφ prec p).classify (Box.mapB φ hφ X) = (exactPlane prec p).classify X := by
  match X with
  | [] => rfl
  | [I] => rcases I with _ | ⟨_ | a1, _ | b1, q1⟩ <;> rfl
  | I :: J :: _ :: _ => rcases I with _ | ⟨_ | a1, _ | b1, q1⟩ <;> rcases J with _ | ⟨_ | a2, _ | b2, q2⟩ <;> rfl
  | [I, J] =>
    rcases I with _ | ⟨_ | a1, _ | b1, q1⟩ <;> rcases J with _ | ⟨_ | a2, _ | b2, q2⟩ <;> try rfl
    change (if false || (exactPlaneB φ hφ prec p).primitiveOut (φ a1) (φ b1) (φ a2) (φ b2) then some SetValue.OUT else
      if false && (exactPlaneB φ hφ prec p).primitiveIn (φ a1) (φ b1) (φ a2) (φ b2) then some SetValue.IN else
      if max (φ b1 - φ a1) (φ b2 - φ a2) < φ prec then some SetValue.UNKNOWN else none) =
      (if false || (exactPlane prec p).primitiveOut a1 b1 a2 b2 then some SetValue.OUT else
      if false && (exactPlane prec p).primitiveIn a1 b1 a2 b2 then some SetValue.IN else
      if max (b1 - a1) (b2 - a2) < prec then some SetValue.UNKNOWN else none)
    rw [mapB_primitiveOut, ← map_sub, ← map_sub, ← hφ.monotone.map_max]
    simp only [Bool.false_and, hφ.lt_iff_lt]

theorem mapB_detect {bis : Box K → Box K × Box K} {bis' : Box K' → Box K' × Box K'} {cl : Box K → Option SetValue} {cl' : Box K' → Option SetValue}
    (hbis : ∀ X, bis' (Box.mapB φ hφ X) = (Box.mapB φ hφ (bis X).1, Box.mapB φ hφ (bis X).2)) (hcl : ∀ X, cl' (Box.mapB φ hφ X) = cl X) (n : Nat) (P : Paving K) :
    (P.mapB φ hφ).detect bis' cl' n = (P.detect bis cl n).map (Paving.mapB φ hφ) := by
  induction n generalizing P with
  | zero => cases P <;> rfl
  | succ n ih =>
    cases P with
    | leaf b w =>
      change (Paving.leaf (Box.mapB φ hφ b) w).detect bis' cl' (n + 1) = _
      rw [detect, detect, hcl, hbis]
      by_cases hw : w = .OUT
      · rw [if_pos hw, if_pos hw]; rfl
      · rw [if_neg hw, if_neg hw]
        cases cl b with
        | some u => rfl
        | none =>
          dsimp only
          have i1 := ih (.leaf (bis b).1 w)
          have i2 := ih (.leaf (bis b).2 w)
          rw [show Paving.mapB φ hφ (.leaf (bis b).1 w) = .leaf (Box.mapB φ hφ (bis b).1) w from rfl] at i1
          rw [show Paving.mapB φ hφ (.leaf (bis b).2 w) = .leaf (Box.mapB φ hφ (bis b).2) w from rfl] at i2
          rw [i1, i2]
          cases (Paving.leaf (bis b).1 w).detect bis cl n with
          | none => rfl
          | some l => cases (Paving.leaf (bis b).2 w).detect bis cl n <;> rfl
    | node b w l r =>
      change (Paving.node (Box.mapB φ hφ b) w (l.mapB φ hφ) (r.mapB φ hφ)).detect bis' cl' (n + 1) = _
      rw [detect, detect]
      by_cases hw : w = .OUT
      · rw [if_pos hw, if_pos hw]; rfl
      · rw [if_neg hw, if_neg hw, ih, ih]
        cases l.detect bis cl n with
        | none => rfl
        | some l' => cases r.detect bis cl n <;> rfl

/-! ### The subsets -/

theorem contains_mapB (flags : List (Leaf K)) (q : Leaf K) : (flags.map (Leaf.mapB φ hφ)).contains (q.mapB φ hφ) = flags.contains q := by
  rw [Bool.eq_iff_iff, List.contains_iff_mem, List.contains_iff_mem, List.mem_map]
  constructor
  · rintro ⟨a, ha, e⟩; rwa [← (Leaf.mapB_inj hφ).1 e]
  · intro h; exact ⟨_, h, rfl⟩

theorem mapB_neighbours' (P : Paving K) (val : SetValue) (flags : List (Leaf K)) (t : Nat) (e : Leaf K) :
    (P.mapB φ hφ).neighbours val (flags.map (Leaf.mapB φ hφ)) t (e.mapB φ hφ) = (P.neighbours val flags t e).map (Leaf.mapB φ hφ) := by
  unfold neighbours
  change ((P.mapB φ hφ).intersecting val (Box.mapB φ hφ e.box) t []).filter _ = _
  rw [mapB_intersecting, List.filter_map]
  refine congrArg _ (List.filter_congr fun q _ => ?_)
  have h1 : (q.mapB φ hφ != e.mapB φ hφ) = (q != e) := by
    rw [Bool.eq_iff_iff, bne_iff_ne, bne_iff_ne, ne_eq, ne_eq, Leaf.mapB_inj]
  simp only [Function.comp_apply, h1, contains_mapB]
  rfl

theorem mapB_grow (val : SetValue) (t : Nat) (P : Paving K) (n : Nat) (l items flags : List (Leaf K)) :
    grow val t (P.mapB φ hφ) n (l.map (Leaf.mapB φ hφ)) (items.map (Leaf.mapB φ hφ)) (flags.map (Leaf.mapB φ hφ)) =
      (grow val t P n l items flags).map fun r => (r.1.map (Leaf.mapB φ hφ), r.2.map (Leaf.mapB φ hφ)) := by
  induction n generalizing l items flags with
  | zero => cases l <;> rfl
  | succ n ih =>
    cases l with
    | nil => rfl
    | cons e l =>
      rw [List.map_cons, grow, grow, ← ih]
      rw [← List.map_cons (f := Leaf.mapB φ hφ), mapB_neighbours', ← List.map_append, ← List.map_append]
      congr 1
      rw [List.map_append]
      rfl

theorem mapB_subsets (fuel : Nat) (val : SetValue) (P : Paving K) (n : Nat) (flags : List (Leaf K)) (acc : List (List (Leaf K))) :
    subsets fuel val 0 [] (P.mapB φ hφ) 0 (P.mapB φ hφ) n (flags.map (Leaf.mapB φ hφ)) (acc.map (List.map (Leaf.mapB φ hφ))) =
      (subsets fuel val 0 [] P 0 P n flags acc).map (List.map (List.map (Leaf.mapB φ hφ))) := by
  induction n generalizing flags acc with
  | zero => rfl
  | succ n ih =>
    rw [subsets, subsets, mapB_firstLeaf]
    cases P.firstLeaf val flags 0 [] with
    | none => rfl
    | some q =>
      have hg := mapB_grow φ hφ val 0 P fuel [q] [] flags
      dsimp only [Option.map_some]
      rw [show [q].map (Leaf.mapB φ hφ) = [q.mapB φ hφ] from rfl, show ([] : List (Leaf K)).map (Leaf.mapB φ hφ) = [] from rfl] at hg
      rw [hg]
      cases grow val 0 P fuel [q] [] flags with
      | none => rfl
      | some r =>
        dsimp only [Option.map_some, Option.bind_some]
        rw [← ih]
        congr 1
        rw [List.map_append]
        rfl

theorem mapB_connectedSubsets (fuel : Nat) (val : SetValue) (P : Paving K) :
    connectedSubsets fuel val 0 [] (P.mapB φ hφ) 0 (P.mapB φ hφ) [] = (connectedSubsets fuel val 0 [] P 0 P []).map (List.map (List.map (Leaf.mapB φ hφ))) :=
  mapB_subsets φ hφ fuel val P fuel [] []

/-! ### The proofs -/

theorem mapB_incl (X : Box K) : (exactPlaneB φ hφ prec p).incl (Box.mapB φ hφ X) =
    (((exactPlane prec p).incl X).1.mapB φ hφ, ((exactPlane prec p).incl X).2.mapB φ hφ) := by
  have key : ∀ a1 b1 a2 b2 i, (exactPlaneB φ hφ prec p).inclBounds (φ a1) (φ b1) (φ a2) (φ b2) i = ((exactPlane prec p).inclBounds a1 b1 a2 b2 i).mapB φ hφ := by
    intro a1 b1 a2 b2 i
    change Itv.sub (((p i).mapB φ hφ).evalItv (.icc (φ a2) (φ b2))) (((p i).mapB φ hφ).evalItv (.icc (φ a1) (φ b1))) = _
    rw [← Itv.mapB_icc hφ, ← Itv.mapB_icc hφ, Tube.mapB_evalItv, Tube.mapB_evalItv, ← Itv.mapB_sub]
    rfl
  match X with
  | [] => rfl
  | [I] => rcases I with _ | ⟨_ | a1, _ | b1, q1⟩ <;> rfl
  | I :: J :: _ :: _ => rcases I with _ | ⟨_ | a1, _ | b1, q1⟩ <;> rcases J with _ | ⟨_ | a2, _ | b2, q2⟩ <;> rfl
  | [I, J] =>
    rcases I with _ | ⟨_ | a1, _ | b1, q1⟩ <;> rcases J with _ | ⟨_ | a2, _ | b2, q2⟩ <;> try rfl
    exact Prod.ext (key a1 b1 a2 b2 0) (key a1 b1 a2 b2 1)

theorem mapB_computeProofs (P : Paving K) (R : List (List (Leaf K))) :
    (exactPlaneB φ hφ prec p).computeProofs (P.mapB φ hφ) (R.map (List.map (Leaf.mapB φ hφ))) =
      ((exactPlane prec p).computeProofs P R).map (List.map (List.map (Leaf.mapB φ hφ))) := by
  induction R with
  | nil => rfl
  | cons s R ih =>
    rw [List.map_cons, TPlaneArgs.computeProofs, TPlaneArgs.computeProofs, ih]
    have hz := Deg.mapB_zeroProven hφ (F := (exactPlane prec p).incl) (F' := (exactPlaneB φ hφ prec p).incl) (map_zero φ) (mapB_incl φ hφ prec p) ⟨s, P⟩
    rw [show Deg.Subset.mapB φ hφ ⟨s, P⟩ = ⟨s.map (Leaf.mapB φ hφ), P.mapB φ hφ⟩ from rfl] at hz
    rw [hz]
    cases Deg.Subset.zeroProven (exactPlane prec p).incl ⟨s, P⟩ with
    | none => rfl
    | some z =>
      cases (exactPlane prec p).computeProofs P R with
      | none => rfl
      | some S => cases z <;> rfl

/-- `compute_loops` on a bounded plane -/
theorem mapB_computeLoops (r : K) (fuel fuel' : Nat) (P : Paving K) (hP : ∀ I ∈ P.box, I.isUnbounded = false) :
    (P.mapB φ hφ).computeLoops (largestFirst (φ r)) fuel fuel' (exactPlaneB φ hφ prec p) =
      (P.computeLoops (largestFirst r) fuel fuel' (exactPlane prec p)).map fun x =>
        (x.1.mapB φ hφ, x.2.1.map (List.map (Leaf.mapB φ hφ)), x.2.2.map (List.map (Leaf.mapB φ hφ))) := by
  have hP' : ∀ I ∈ (P.mapB φ hφ).box, I.isUnbounded = false := by
    intro I hI
    rw [mapB_box] at hI
    obtain ⟨J, hJ, rfl⟩ := List.mem_map.1 hI
    have := hP J hJ
    rcases J with _ | ⟨_ | a, _ | b, q⟩ <;> first | rfl | cases this
  unfold Paving.computeLoops Paving.computeDetections
  rw [initBox_of_bounded hP, initBox_of_bounded hP', mapB_detect φ hφ (mapB_largestFirst φ hφ r) (mapB_classify φ hφ prec p)]
  cases P.detect (largestFirst r) (exactPlane prec p).classify fuel with
  | none => rfl
  | some Q =>
    dsimp only [Option.map_some, Option.bind_some]
    rw [mapB_connectedSubsets]
    cases connectedSubsets fuel' 5 0 [] Q 0 Q [] with
    | none => rfl
    | some R =>
      dsimp only [Option.map_some, Option.bind_some]
      rw [mapB_computeProofs]
      cases (exactPlane prec p).computeProofs Q R <;> rfl

end Codac
