import Verif.Ctc.QInter

/-!
# Separators

Sources: `src/core/separators/codac_SepBox.cpp`, `codac_SepTransform.cpp`, `codac_SepFixPoint.cpp`, `codac_QInterProjF.cpp`.
-/

set_option linter.unusedSectionVars false

namespace Codac

variable {K : Type*} [LinearOrder K]

/-- the interval `Interval(NEG_INFINITY, b.lb())`, codac_SepBox.cpp:30 (`b` not empty: the bounds of an empty interval are not numbers) -/
def belowItv : Itv K → Itv K
  | .mk (some a) _ _ => .ofBounds none (some a)
  | _ => ⊥

/-- the interval `Interval(b.ub(), POS_INFINITY)`, codac_SepBox.cpp:30 -/
def aboveItv : Itv K → Itv K
  | .mk _ (some a) _ => .ofBounds (some a) none
  | _ => ⊥

/-- one iteration of the loop of `SepBox::separate`, codac_SepBox.cpp:27-33 -/
def sepBoxStep (b x_in : Box K) (acc : Box K) (k : Nat) : Box K :=
  let s := x_in.getD k ⊤
  let c := b.getD k ⊤
  if s ≤ c then acc else acc.hull (x_in.set k ((s ⊓ belowItv c) ⊔ (s ⊓ aboveItv c)))

/-- `SepBox::separate`, codac_SepBox.cpp:17-35 -/
def sepBox (b x_in x_out : Box K) : Box K × Box K :=
  (x_in.inter ((List.range x_in.length).foldl (sepBoxStep b x_in) (Box.empty x_in.length)), x_out.inter b)

/-- `SepTransform::separate`, codac_SepTransform.cpp:22-47; `ffwd`, `fbwd` the evaluations of the two functions and `bwd y x` the box `x`
after `ffwd.backward(y,x)` (IBEX) -/
def sepTransform (s : Box K → Box K → Box K × Box K) (ffwd fbwd : Box K → Box K) (bwd : Box K → Box K → Box K) (xin xout : Box K) :
    Box K × Box K :=
  let xin := xin.inter xout
  let y := ffwd xin
  let r := s y y
  (if r.1.isEmpty then xin.setEmpty else bwd r.1 (xin.inter (fbwd r.1)),
    if r.2.isEmpty then xout.setEmpty else bwd r.2 (xout.inter (fbwd r.2)))

/-- `IntervalVector::operator==` (IBEX) -/
def Box.eqv (X Y : Box K) : Bool := (X.isEmpty && Y.isEmpty) || decide (X = Y)

/-- the members of `SepFixPoint` -/
structure FixFlags (K : Type*) [LinearOrder K] where
  cin : Bool
  cout : Bool
  cinBoxes : List (Box K)
  coutBoxes : List (Box K)

/-- `SepFixPoint::clearFlags`, codac_SepFixPoint.cpp:32-41 -/
def FixFlags.clear : FixFlags K := ⟨false, false, [], []⟩

/-- `SepFixPoint::setCinFlags` and `setCoutFlags`, codac_SepFixPoint.cpp:45-61; `diff` the set difference of IBEX -/
def FixFlags.update (diff : Box K → Box K → List (Box K)) (f : FixFlags K) (x_in x_out x0 : Box K) : FixFlags K where
  cin := f.cin || !x_in.eqv x0
  cout := f.cout || !x_out.eqv x0
  cinBoxes := if !f.cin && !x_in.eqv x0 then diff x0 x_in else f.cinBoxes
  coutBoxes := if !f.cout && !x_out.eqv x0 then diff x0 x_out else f.coutBoxes

/-- the loop of `SepFixPoint::separate`, codac_SepFixPoint.cpp:149-161; `cont x_old x` the test `x_old.rel_distance(x) > ratio`; at most
`fuel` iterations -/
def sepFixLoop (s : Box K → Box K → Box K × Box K) (diff : Box K → Box K → List (Box K)) (cont : Box K → Box K → Bool) :
    Nat → Box K → Box K → Box K → FixFlags K → Option (Box K × Box K × FixFlags K)
  | 0, _, _, _, _ => none
  | n + 1, x, x_in, x_out, f =>
    let r := s x_in x_out
    let f' := f.update diff r.1 r.2 x
    let x' := r.1.inter r.2
    if x'.isEmpty then some (r.1, r.2, f')
    else if cont x x' then sepFixLoop s diff cont n x' x' x' f'
    else some (x', x', f')

/-- one iteration of the loops of `reconstruct`, codac_SepFixPoint.cpp:118-133 -/
def fixAssign (f : FixFlags K) (p : Box K × Box K) (r : Box K) : Box K × Box K :=
  let meets := fun b : Box K => !(b.inter r).isEmpty
  (if f.coutBoxes.any meets then p.1.hull r else p.1, if f.cinBoxes.any meets then p.2.hull r else p.2)

/-- `SepFixPoint::reconstruct`, codac_SepFixPoint.cpp:90-140; `none`: an assertion fails -/
def fixReconstruct (diff : Box K → Box K → List (Box K)) (f : FixFlags K) (x_in x_out x_old : Box K) : Option (Box K × Box K) :=
  let x := x_in.inter x_out
  if x.eqv x_old then some (x_in, x_out)
  else
    match f.cin, f.cout with
    | true, false => some (x, x_old)
    | false, true => some (x_old, x)
    | true, true =>
      let rest := diff x_old x
      if f.cinBoxes.length = 1 ∧ f.coutBoxes.length = 1 ∧ rest.length = 2 then some (rest.foldl (fixAssign f) (x_in, x_out))
      else none
    | false, false => none

/-- `SepFixPoint::separate`, codac_SepFixPoint.cpp:142-163 -/
def sepFixPoint (s : Box K → Box K → Box K × Box K) (diff : Box K → Box K → List (Box K)) (cont : Box K → Box K → Bool)
    (fuel : Nat) (x_in x_out : Box K) : Option (Box K × Box K) :=
  let x := x_in.inter x_out
  (sepFixLoop s diff cont fuel x x_in x_out .clear).bind fun r => fixReconstruct diff r.2.2 r.1 r.2.1 x

/-! ### `SepBox` -/

theorem mem_outside {I c : Itv K} {a : K} (ha : a ∈ I) (hc : ¬ a ∈ c) (hne : c ≠ ⊥) :
    a ∈ (I ⊓ belowItv c) ⊔ (I ⊓ aboveItv c) := by
  cases c with
  | empty => exact absurd rfl hne
  | mk lo hi p =>
    rw [Itv.mem_mk] at hc
    by_cases h1 : loLe lo a
    · have h2 : ¬ leHi a hi := fun h => hc ⟨h1, h⟩
      cases hi with
      | none => exact absurd trivial h2
      | some b =>
        refine Itv.mem_sup_right (Itv.mem_inf.mpr ⟨ha, ?_⟩)
        rw [leHi_some, not_le] at h2
        simp only [aboveItv, Itv.mem_ofBounds]
        exact ⟨h2.le, trivial⟩
    · cases lo with
      | none => exact absurd trivial h1
      | some b =>
        refine Itv.mem_sup_left (Itv.mem_inf.mpr ⟨ha, ?_⟩)
        rw [loLe_some, not_le] at h1
        simp only [belowItv, Itv.mem_ofBounds]
        exact ⟨trivial, h1.le⟩

theorem outside_le (I c : Itv K) : (I ⊓ belowItv c) ⊔ (I ⊓ aboveItv c) ≤ I := sup_le inf_le_left inf_le_left

theorem sepBoxStep_length {b x_in acc : Box K} {k : Nat} (h : acc.length = x_in.length) :
    (sepBoxStep b x_in acc k).length = x_in.length := by
  unfold sepBoxStep
  dsimp only
  split
  · exact h
  · rw [Box.length_hull (by simpa using h), h]

theorem sepBox_fold_length {b x_in : Box K} (ks : List Nat) {acc : Box K} (h : acc.length = x_in.length) :
    (ks.foldl (sepBoxStep b x_in) acc).length = x_in.length := by
  induction ks generalizing acc with
  | nil => exact h
  | cons k ks ih => exact ih (sepBoxStep_length h)

theorem getD_of_lt {α : Type*} {l : List α} {k : Nat} {d : α} (h : k < l.length) : l.getD k d = l[k] := by
  rw [List.getD_eq_getElem?_getD, List.getElem?_eq_getElem h]; rfl

theorem sepBox_fold_keeps {b x_in : Box K} (hl : b.length = x_in.length) (hne : ∀ c ∈ b, c ≠ ⊥) {v : List K} (hv : InBox v x_in)
    (ks : List Nat) {acc : Box K} (h : acc.length = x_in.length)
    (hk : InBox v acc ∨ ∃ k ∈ ks, ∃ a c, v[k]? = some a ∧ b[k]? = some c ∧ ¬ a ∈ c) :
    InBox v (ks.foldl (sepBoxStep b x_in) acc) := by
  induction ks generalizing acc with
  | nil => simpa using hk
  | cons k ks ih =>
    refine ih (sepBoxStep_length h) ?_
    have hacc : InBox v acc → InBox v (sepBoxStep b x_in acc k) := by
      intro ha
      unfold sepBoxStep
      dsimp only
      split
      · exact ha
      · exact ha.hull_left (by simpa using h)
    rcases hk with hk | ⟨k', hm, a, c, h1, h2, h3⟩
    · exact .inl (hacc hk)
    · rcases List.mem_cons.mp hm with rfl | hm
      · left
        obtain ⟨hkv, h1⟩ := List.getElem?_eq_some_iff.mp h1
        obtain ⟨hkb, h2⟩ := List.getElem?_eq_some_iff.mp h2
        have hkx : k' < x_in.length := hl ▸ hkb
        have hv' := hv
        unfold InBox at hv'
        rw [List.forall₂_iff_get] at hv'
        have ha : a ∈ x_in[k'] := by
          have := hv'.2 k' hkv hkx
          simp only [List.get_eq_getElem] at this
          rwa [h1] at this
        have hc : c ≠ ⊥ := hne c (h2 ▸ List.getElem_mem hkb)
        unfold sepBoxStep
        dsimp only
        rw [getD_of_lt hkx, getD_of_lt hkb, h2]
        rw [if_neg (fun hle => h3 (Itv.mem_of_le hle ha))]
        refine InBox.hull_right (by simpa using h) ?_
        unfold InBox
        rw [List.forall₂_iff_get]
        refine ⟨by simpa using hv'.1, fun j hj hj' => ?_⟩
        simp only [List.get_eq_getElem, List.getElem_set]
        split
        · rename_i he
          subst he
          rw [h1]
          exact mem_outside ha h3 hc
        · exact hv'.2 j hj (by simpa using hj')
      · exact .inr ⟨k', hm, a, c, h1, h2, h3⟩

theorem exists_not_mem {v : List K} {b : Box K} (hl : v.length = b.length) (h : ¬ InBox v b) :
    ∃ k < b.length, ∃ a c, v[k]? = some a ∧ b[k]? = some c ∧ ¬ a ∈ c := by
  by_contra hc
  apply h
  unfold InBox
  rw [List.forall₂_iff_get]
  refine ⟨hl, fun i hi hi' => ?_⟩
  by_contra hn
  exact hc ⟨i, hi', _, _, List.getElem?_eq_getElem hi, List.getElem?_eq_getElem hi', hn⟩

/-! ### `SepFixPoint` -/

theorem IsSep.length {n : Nat} {S : List K → Prop} {s : Box K → Box K → Box K × Box K} (h : IsSep n S s) {X Y : Box K}
    (hX : X.length = n) (hY : Y.length = n) : (s X Y).1.length = n ∧ (s X Y).2.length = n :=
  ⟨(h.le_in X Y hX hY).length.trans hX, (h.le_out X Y hX hY).length.trans hY⟩

theorem Box.eqv_mem {X Y : Box K} {v : List K} (h : X.eqv Y = true) (hv : InBox v Y) : X = Y := by
  unfold Box.eqv at h
  rw [hv.not_isEmpty] at h
  simpa using h

theorem sepFixLoop_flags {s : Box K → Box K → Box K × Box K} {diff : Box K → Box K → List (Box K)} {cont : Box K → Box K → Bool}
    (fuel : Nat) {x x_in x_out a b : Box K} {f f' : FixFlags K}
    (h : sepFixLoop s diff cont fuel x x_in x_out f = some (a, b, f')) :
    (f.cin = true → f'.cin = true) ∧ (f.cout = true → f'.cout = true) := by
  induction fuel generalizing x x_in x_out f with
  | zero => cases h
  | succ m ih =>
    rw [sepFixLoop] at h
    split at h
    · simp only [Option.some.injEq, Prod.mk.injEq] at h
      rw [← h.2.2]
      simp only [FixFlags.update, Bool.or_eq_true]
      exact ⟨.inl, .inl⟩
    · split at h
      · have := ih h
        simp only [FixFlags.update, Bool.or_eq_true] at this
        exact ⟨fun h => this.1 (.inl h), fun h => this.2 (.inl h)⟩
      · simp only [Option.some.injEq, Prod.mk.injEq] at h
        rw [← h.2.2]
        simp only [FixFlags.update, Bool.or_eq_true]
        exact ⟨.inl, .inl⟩

theorem sepFixLoop_le {n : Nat} {S : List K → Prop} {s : Box K → Box K → Box K × Box K} (hs : IsSep n S s)
    {diff : Box K → Box K → List (Box K)} {cont : Box K → Box K → Bool} (fuel : Nat) {x x_in x_out a b : Box K} {f f' : FixFlags K}
    (hi : x_in.length = n) (ho : x_out.length = n)
    (h : sepFixLoop s diff cont fuel x x_in x_out f = some (a, b, f')) :
    a.length = n ∧ b.length = n ∧ BoxLe a x_in ∧ BoxLe b x_out := by
  induction fuel generalizing x x_in x_out f with
  | zero => cases h
  | succ m ih =>
    have hl := hs.length hi ho
    have h1 := hs.le_in x_in x_out hi ho
    have h2 := hs.le_out x_in x_out hi ho
    have hll : (s x_in x_out).1.length = (s x_in x_out).2.length := by rw [hl.1, hl.2]
    rw [sepFixLoop] at h
    split at h
    · simp only [Option.some.injEq, Prod.mk.injEq] at h
      obtain ⟨rfl, rfl, _⟩ := h
      exact ⟨hl.1, hl.2, h1, h2⟩
    · have hlen : ((s x_in x_out).1.inter (s x_in x_out).2).length = n := by rw [Box.length_inter hll, hl.1]
      split at h
      · obtain ⟨h3, h4, h5, h6⟩ := ih hlen hlen h
        exact ⟨h3, h4, (h5.trans (inter_le_left hll)).trans h1, (h6.trans (inter_le_right hll)).trans h2⟩
      · simp only [Option.some.injEq, Prod.mk.injEq] at h
        obtain ⟨rfl, rfl, _⟩ := h
        exact ⟨hlen, hlen, (inter_le_left hll).trans h1, (inter_le_right hll).trans h2⟩

/-- when the outer boxes are never contracted, the points out of the set are kept -/
theorem sepFixLoop_keeps_in {n : Nat} {S : List K → Prop} {s : Box K → Box K → Box K × Box K} (hs : IsSep n S s)
    {diff : Box K → Box K → List (Box K)} {cont : Box K → Box K → Bool} (fuel : Nat) {x x_in x_out a b : Box K} {f f' : FixFlags K}
    (hi : x_in.length = n) (ho : x_out.length = n) {v : List K} (hvx : InBox v x) (hvi : InBox v x_in) (hvo : InBox v x_out)
    (h : sepFixLoop s diff cont fuel x x_in x_out f = some (a, b, f')) (hf : f'.cout = false) (hS : ¬ S v) :
    InBox v (a.inter b) := by
  induction fuel generalizing x x_in x_out f with
  | zero => cases h
  | succ m ih =>
    have hl := hs.length hi ho
    have hll : (s x_in x_out).1.length = (s x_in x_out).2.length := by rw [hl.1, hl.2]
    have h1 := hs.keeps_in x_in x_out v hi ho hvi hvo hS
    have hfl : (f.update diff (s x_in x_out).1 (s x_in x_out).2 x).cout = false := by
      rw [sepFixLoop] at h
      split at h
      · simp only [Option.some.injEq, Prod.mk.injEq] at h
        rw [h.2.2]; exact hf
      · split at h
        · by_contra hc
          have := (sepFixLoop_flags m h).2 (by simpa using hc)
          rw [hf] at this
          cases this
        · simp only [Option.some.injEq, Prod.mk.injEq] at h
          rw [h.2.2]; exact hf
    simp only [FixFlags.update, Bool.or_eq_false_iff, Bool.not_eq_eq_eq_not, Bool.not_false] at hfl
    have h2 : InBox v (s x_in x_out).2 := by rw [Box.eqv_mem hfl.2 hvx]; exact hvx
    have h3 : InBox v ((s x_in x_out).1.inter (s x_in x_out).2) := (inBox_inter hll).mpr ⟨h1, h2⟩
    have hlen : ((s x_in x_out).1.inter (s x_in x_out).2).length = n := by rw [Box.length_inter hll, hl.1]
    rw [sepFixLoop] at h
    rw [h3.not_isEmpty] at h
    simp only [Bool.false_eq_true, if_false] at h
    split at h
    · exact ih hlen hlen h3 h3 h3 h
    · simp only [Option.some.injEq, Prod.mk.injEq] at h
      obtain ⟨rfl, rfl, _⟩ := h
      exact (inBox_inter rfl).mpr ⟨h3, h3⟩

/-- when the inner boxes are never contracted, the points of the set are kept -/
theorem sepFixLoop_keeps_out {n : Nat} {S : List K → Prop} {s : Box K → Box K → Box K × Box K} (hs : IsSep n S s)
    {diff : Box K → Box K → List (Box K)} {cont : Box K → Box K → Bool} (fuel : Nat) {x x_in x_out a b : Box K} {f f' : FixFlags K}
    (hi : x_in.length = n) (ho : x_out.length = n) {v : List K} (hvx : InBox v x) (hvi : InBox v x_in) (hvo : InBox v x_out)
    (h : sepFixLoop s diff cont fuel x x_in x_out f = some (a, b, f')) (hf : f'.cin = false) (hS : S v) :
    InBox v (a.inter b) := by
  induction fuel generalizing x x_in x_out f with
  | zero => cases h
  | succ m ih =>
    have hl := hs.length hi ho
    have hll : (s x_in x_out).1.length = (s x_in x_out).2.length := by rw [hl.1, hl.2]
    have h1 := hs.keeps_out x_in x_out v hi ho hvi hvo hS
    have hfl : (f.update diff (s x_in x_out).1 (s x_in x_out).2 x).cin = false := by
      rw [sepFixLoop] at h
      split at h
      · simp only [Option.some.injEq, Prod.mk.injEq] at h
        rw [h.2.2]; exact hf
      · split at h
        · by_contra hc
          have := (sepFixLoop_flags m h).1 (by simpa using hc)
          rw [hf] at this
          cases this
        · simp only [Option.some.injEq, Prod.mk.injEq] at h
          rw [h.2.2]; exact hf
    simp only [FixFlags.update, Bool.or_eq_false_iff, Bool.not_eq_eq_eq_not, Bool.not_false] at hfl
    have h2 : InBox v (s x_in x_out).1 := by rw [Box.eqv_mem hfl.2 hvx]; exact hvx
    have h3 : InBox v ((s x_in x_out).1.inter (s x_in x_out).2) := (inBox_inter hll).mpr ⟨h2, h1⟩
    have hlen : ((s x_in x_out).1.inter (s x_in x_out).2).length = n := by rw [Box.length_inter hll, hl.1]
    rw [sepFixLoop] at h
    rw [h3.not_isEmpty] at h
    simp only [Bool.false_eq_true, if_false] at h
    split at h
    · exact ih hlen hlen h3 h3 h3 h
    · simp only [Option.some.injEq, Prod.mk.injEq] at h
      obtain ⟨rfl, rfl, _⟩ := h
      exact (inBox_inter rfl).mpr ⟨h3, h3⟩

end Codac
