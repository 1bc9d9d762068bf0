import Verif.Thick.FastSiviaProofs
import Verif.Props.ThickPaving

/-!
# C142: the search of a point by `FastSivia`, erosion and dilation of thick sets

`FastSivia` stops at the first box whose label, or whose middle, is `IN`, and `check_empty` is then asked whether there is a point in the set. The
erosion and the dilation of the Python module are built on this.
-/

set_option linter.unusedSectionVars false

namespace Codac.Props

open SPav TPav TPav.TNode

section
variable {K : Type*} [Field K] [LinearOrder K] [IsStrictOrderedRing K]

/-- the set `T` is between the subset and the superset of the thick set `S` -/
def SetOf (S : List K → V3) (T : List K → Prop) : Prop := ∀ x, (S x = .yes → T x) ∧ (T x → S x ≠ .no)

/-- C142, `FastSivia` then `check_empty`, on a box which has not been tested: `OUT` only if no point of the box is in the superset, `IN` only if some
point of the box is in the subset -/
theorem C142_answer {n : Nat} {S : List K → V3} {test : Box K → TB} (ht : TestFor S test) {mid : Box K → List K}
    (hmid : ∀ b, b.length = n → Bnd b → Solid b → InBox (mid b) b) {bis : Box K → Box K × Box K} {eps : K} (hbis : Cuts eps bis) {fuel : Nat}
    {X : Box K} (hX : X.length = n ∧ Bnd X ∧ Solid X) {t : TNode K} (h : fastSivia test mid bis eps TB.opInter fuel (leaf X .maybe) = some t) :
    (t.checkEmpty = .out → ∀ x, InBox x X → S x = .no) ∧ (t.checkEmpty = .in_ → ∃ x, InBox x X ∧ S x = .yes) :=
  fast_checkEmpty (fastSivLoop_ok (t := leaf X .maybe) ht hmid hbis hX (Or.inl rfl) h)

/-- C142: the same on a paving whose labels are right -/
theorem C142_answer_paving {n : Nat} {S : List K → V3} {test : Box K → TB} (ht : TestFor S test) {mid : Box K → List K}
    (hmid : ∀ b, b.length = n → Bnd b → Solid b → InBox (mid b) b) {bis : Box K → Box K × Box K} {eps : K} (hbis : Cuts eps bis) {fuel : Nat}
    {t t' : TNode K} (hr : Regular n t) (hS : Right S t) (h : fastSivia test mid bis eps TB.opInter fuel t = some t') :
    (t'.checkEmpty = .out → ∀ x, InBox x t.box → S x = .no) ∧ (t'.checkEmpty = .in_ → ∃ x, InBox x t.box ∧ S x = .yes) :=
  fast_checkEmpty (fastSivLoop_ok ht hmid hbis hr (All.imp (fun _ _ h => .inr h) hS) h)

/-- the value of the points of `B` which are not in `A` -/
theorem restrict_test {SA SB : List K → V3} {testA testB : Box K → TB} (hA : TestFor SA testA) (hB : TestFor SB testB) {op : TB → TB} {g : V3 → V3}
    (hop : ∀ v s, v.has s = true → (op v).has (g s) = true) :
    TestFor (fun x => (g (SB x)).and (SA x).not) fun b => (op (testB b)).opRestrict (testA b) :=
  fun b x hx => TB.and_sound (hop _ _ (hB b x hx)) (TB.not_sound (hA b x hx))

/-- C142, the erosion. `B` is moved by parameters, `testB` is its test for all the parameters of the box `P`. `IN` only if, for all these parameters, the
part of `B` in the box `X` is in `A`; `OUT` only if, for all these parameters, some point of `B` in the box `X` is not in `A`; for all the sets `A` and `B`
between the bounds. -/
theorem C142_erode {n : Nat} {SA : List K → V3} {SB : List K → List K → V3} {P : Box K} {testA testB : Box K → TB} (hA : TestFor SA testA)
    (hB : ∀ p, InBox p P → TestFor (SB p) testB) {mid : Box K → List K} (hmid : ∀ b, b.length = n → Bnd b → Solid b → InBox (mid b) b)
    {bis : Box K → Box K × Box K} {eps : K} (hbis : Cuts eps bis) {fuel : Nat} {X : Box K} (hX : X.length = n ∧ Bnd X ∧ Solid X) {r : TB}
    (h : erodeTest testA testB mid bis eps fuel X = some r) {p : List K} (hp : InBox p P) {a b : List K → Prop} (ha : SetOf SA a) (hb : SetOf (SB p) b) :
    (r = .in_ → ∀ x, InBox x X → b x → a x) ∧ (r = .out → ∃ x, InBox x X ∧ b x ∧ ¬ a x) := by
  unfold erodeTest at h
  cases e1 : fastSivia (fun b => (testB b).opLower.opRestrict (testA b)) mid bis eps TB.opInter fuel (leaf X .maybe) with
  | none => rw [e1] at h; cases h
  | some lb =>
    cases e2 : fastSivia (fun b => (testB b).opUpper.opRestrict (testA b)) mid bis eps TB.opInter fuel (leaf X .maybe) with
    | none => rw [e1, e2] at h; cases h
    | some ub =>
      rw [e1, e2] at h
      simp only [Option.bind_some, Option.map_some, Option.some.injEq] at h
      subst h
      have hl := C142_answer (restrict_test hA (hB p hp) C106_change_operators.2.2) hmid hbis hX e1
      have hu := C142_answer (restrict_test hA (hB p hp) C106_change_operators.2.1) hmid hbis hX e2
      constructor
      · intro hr x hx hbx
        split at hr
        · rename_i hc
          have h1 := hu.1 hc x hx
          have h2 := (hb x).2 hbx
          refine (ha x).1 ?_
          revert h1 h2
          cases SB p x <;> cases SA x <;> simp [upper, V3.and, V3.not]
        · split at hr <;> cases hr
      · intro hr
        split at hr
        · cases hr
        · split at hr
          · rename_i hc
            obtain ⟨x, hx, h1⟩ := hl.2 hc
            have h2 : SB p x = .yes ∧ SA x = .no := by
              revert h1
              cases SB p x <;> cases SA x <;> simp [lower, V3.and, V3.not]
            exact ⟨x, hx, (hb x).1 h2.1, fun hax => (ha x).2 hax h2.2⟩
          · cases hr

theorem inBox_neg {x : List K} {b : Box K} (h : InBox x b) : InBox (x.map Neg.neg) (negBox b) := by
  unfold InBox at h
  induction h with
  | nil => exact .nil
  | @cons a I _ _ ha _ ih =>
    refine .cons ?_ ih
    match I, ha with
    | .mk lo hi hh, ha =>
      refine Itv.mem_ofBounds.2 ⟨?_, ?_⟩
      · cases hi with
        | none => trivial
        | some u => exact neg_le_neg ha.2
      · cases lo with
        | none => trivial
        | some l => exact neg_le_neg ha.1

/-- C142, the dilation: `OUT` only if, for all the parameters, no point of `A` in the box `X` has its opposite in `B`; `IN` only if, for all the
parameters, some has -/
theorem C142_dilate {n : Nat} {SA : List K → V3} {SB : List K → List K → V3} {P : Box K} {testA testB : Box K → TB} (hA : TestFor SA testA)
    (hB : ∀ p, InBox p P → TestFor (SB p) testB) {mid : Box K → List K} (hmid : ∀ b, b.length = n → Bnd b → Solid b → InBox (mid b) b)
    {bis : Box K → Box K × Box K} {eps : K} (hbis : Cuts eps bis) {fuel : Nat} {X : Box K} (hX : X.length = n ∧ Bnd X ∧ Solid X) {r : TB}
    (h : dilateTest testA testB mid bis eps fuel X = some r) {p : List K} (hp : InBox p P) {a b : List K → Prop} (ha : SetOf SA a) (hb : SetOf (SB p) b) :
    (r = .out → ∀ x, InBox x X → a x → ¬ b (x.map Neg.neg)) ∧ (r = .in_ → ∃ x, InBox x X ∧ a x ∧ b (x.map Neg.neg)) := by
  unfold dilateTest at h
  cases e : erodeTest (fun b => (testA b).opNot) (fun b => testB (negBox b)) mid bis eps fuel X with
  | none => rw [e] at h; cases h
  | some r' =>
    rw [e] at h
    obtain rfl := Option.some.inj h
    have ha' : SetOf (fun x => (SA x).not) fun x => ¬ a x := by
      refine fun x => ⟨fun h1 h2 => (ha x).2 h2 ?_, fun h1 h2 => h1 ((ha x).1 ?_)⟩
      · revert h1; dsimp only; cases SA x <;> decide
      · revert h2; dsimp only; cases SA x <;> decide
    obtain ⟨k1, k2⟩ := C142_erode (SA := fun x => (SA x).not) (SB := fun p x => SB p (x.map Neg.neg)) (P := P)
      (fun b x hx => TB.not_sound (hA b x hx)) (fun p hp b x hx => hB p hp _ _ (inBox_neg hx)) hmid hbis hX e hp (a := fun x => ¬ a x)
      (b := fun x => b (x.map Neg.neg)) ha' (fun x => hb _)
    constructor
    · intro hr x hx hax hbx
      have : r' = .in_ := by revert hr; cases r' <;> decide
      exact k1 this x hx hbx hax
    · intro hr
      have : r' = .out := by revert hr; cases r' <;> decide
      obtain ⟨x, hx, h1, h2⟩ := k2 this
      exact ⟨x, hx, not_not.1 h2, h1⟩

/-- C142: `FastSivia` ends, for every test, operator and paving of a bounded box, with the bisector `LargestFirst` -/
theorem C142_terminates [Archimedean K] {n : Nat} (test : Box K → TB) (mid : Box K → List K) {ratio : K} (h0 : 0 < ratio) (h1 : ratio < 1)
    {eps : K} (he : 0 < eps) (op : TB → TB → TB) {t : TNode K} (ht : Regular n t) :
    ∃ N, ∀ fuel, N ≤ fuel → ∃ t', fastSivia test mid (largestFirst ratio) eps op fuel t = some t' :=
  ⟨_, fun _ hf => fastSivLoop_terminates test mid (largestFirst_isBis ratio) (largestFirst_spec h0 h1) (le_max_of_le_left h0.le)
    (max_lt h1 (by linarith)) he (largestFirst_isCut h0 h1 he.le) op ht (List.pairwise_singleton _ _)
    (by intro p hp; simp only [List.mem_cons, List.not_mem_nil, or_false] at hp; subst hp; exact ⟨t, by cases t <;> rfl⟩) hf⟩

/-- C142: the erosion and the dilation end -/
theorem C142_erode_terminates [Archimedean K] {n : Nat} (testA testB : Box K → TB) (mid : Box K → List K) {ratio : K} (h0 : 0 < ratio)
    (h1 : ratio < 1) {eps : K} (he : 0 < eps) {X : Box K} (hX : X.length = n ∧ Bnd X ∧ Solid X) :
    ∃ N, ∀ fuel, N ≤ fuel → (∃ r, erodeTest testA testB mid (largestFirst ratio) eps fuel X = some r) ∧
      ∃ r, dilateTest testA testB mid (largestFirst ratio) eps fuel X = some r := by
  have key : ∀ tA tB : Box K → TB, ∃ N, ∀ fuel, N ≤ fuel → ∃ r, erodeTest tA tB mid (largestFirst ratio) eps fuel X = some r := by
    intro tA tB
    obtain ⟨N1, g1⟩ := C142_terminates (n := n) (fun b => (tB b).opLower.opRestrict (tA b)) mid h0 h1 he TB.opInter (t := leaf X .maybe) hX
    obtain ⟨N2, g2⟩ := C142_terminates (n := n) (fun b => (tB b).opUpper.opRestrict (tA b)) mid h0 h1 he TB.opInter (t := leaf X .maybe) hX
    refine ⟨max N1 N2, fun fuel hf => ?_⟩
    obtain ⟨t1, e1⟩ := g1 fuel (by omega)
    obtain ⟨t2, e2⟩ := g2 fuel (by omega)
    unfold erodeTest
    rw [e1, e2]
    exact ⟨_, rfl⟩
  obtain ⟨N1, g1⟩ := key testA testB
  obtain ⟨N2, g2⟩ := key (fun b => (testA b).opNot) (fun b => testB (negBox b))
  refine ⟨max N1 N2, fun fuel hf => ⟨g1 fuel (by omega), ?_⟩⟩
  obtain ⟨r, e⟩ := g2 fuel (by omega)
  unfold dilateTest
  rw [e]
  exact ⟨_, rfl⟩

end

/-! ### Cases -/

/-- the tree left by `FastSivia` on `[0,4]` for the thick set with the subset `x ≤ 1` and the superset `x ≤ 2` -/
def fastStair : Option (TNode ℚ) := fastSivia stairTest midBox (largestFirst (1 / 2)) (1 / 2) TB.opInter 20 (leaf stairBox .maybe)

/-- `C142_answer` applies: a point is found; on `[5/2,5]` there is none -/
example : fastStair.map TNode.checkEmpty = some .in_ ∧
    (fastSivia stairTest midBox (largestFirst (1 / 2)) (1 / 2) TB.opInter 20 (leaf [Itv.icc (5 / 2) 5] .maybe)).map TNode.checkEmpty = some .out := by
  decide +kernel

example (t : TNode ℚ) (h : fastStair = some t) (hc : t.checkEmpty = .in_) : ∃ x, InBox x stairBox ∧ stair x = .yes :=
  (C142_answer stairTest_ok (fun _ _ _ h => (midBox_interior h).inBox) (C106_bisector (1 / 2) (by norm_num)) stairBox_ok h).2 hc

/-- the interval `[p-1, p]` for `p` in `P`, as a test -/
def windowTest (P : Itv ℚ) : Box ℚ → TB
  | [.mk (some l) (some u) _] => match P with
    | .mk (some c) (some d) _ => if d - 1 ≤ l ∧ u ≤ c then .in_ else if u < c - 1 ∨ d < l then .out else .unk
    | _ => .unk
  | _ => .unk

/-- its points -/
def windowSet (p : List ℚ) : List ℚ → V3
  | [x] => match p with
    | [p] => if p - 1 ≤ x ∧ x ≤ p then .yes else .no
    | _ => .no
  | _ => .no

/-- `windowTest` is right for all the parameters of `P` -/
theorem windowTest_ok {P : Itv ℚ} {p : List ℚ} (hp : InBox p [P]) : TestFor (windowSet p) (windowTest P) := by
  intro b x hx
  have hunk : ∀ s : V3, TB.unk.has s = true := by intro s; cases s <;> rfl
  cases hp with
  | @cons p _ _ _ hp hp' =>
    cases hp'
    unfold windowTest
    split
    · rename_i l u _
      cases hx with
      | @cons a _ x _ ha hx =>
        cases hx
        have h1 : l ≤ a := ha.1
        have h2 : a ≤ u := ha.2
        split
        · rename_i c d _
          have h3 : c ≤ p := hp.1
          have h4 : p ≤ d := hp.2
          unfold windowSet
          simp only
          split
          · rename_i h
            rw [if_pos ⟨by linarith [h.1], by linarith [h.2]⟩]
            rfl
          · split
            · rename_i h
              rw [if_neg]
              · rfl
              · rintro ⟨g1, g2⟩
                rcases h with h | h <;> linarith
            · exact hunk _
        · exact hunk _
    · exact hunk _

/-- the three answers of the erosion of `x ≤ 1` (subset), `x ≤ 2` (superset) by `[p-1,p]`, for `p` in `[0.5,0.75]`, `[3.25,3.5]` and `[1,2]` -/
example : erodeTest stairTest (windowTest (Itv.icc (1 / 2) (3 / 4))) midBox (largestFirst (1 / 2)) (1 / 8) 200 [Itv.icc (-1) 4] = some .in_ ∧
    erodeTest stairTest (windowTest (Itv.icc (13 / 4) (7 / 2))) midBox (largestFirst (1 / 2)) (1 / 8) 200 [Itv.icc (-1) 4] = some .out ∧
    erodeTest stairTest (windowTest (Itv.icc 1 2)) midBox (largestFirst (1 / 2)) (1 / 8) 200 [Itv.icc (-1) 4] = some .unk := by decide +kernel

/-- the answers of the dilation, for `p` in `[-4,-15/4]` (the opposites are in `[3.75,5]`) and in `[0,1/4]` (in `[-1/4,1]`) -/
example : dilateTest stairTest (windowTest (Itv.icc (-4) (-(15 / 4)))) midBox (largestFirst (1 / 2)) (1 / 8) 200 [Itv.icc (-1) 6] = some .out ∧
    dilateTest stairTest (windowTest (Itv.icc 0 (1 / 4))) midBox (largestFirst (1 / 2)) (1 / 8) 200 [Itv.icc (-1) 6] = some .in_ := by decide +kernel

/-- `C142_erode` applies -/
example (r : TB) (h : erodeTest stairTest (windowTest (Itv.icc (1 / 2) (3 / 4))) midBox (largestFirst (1 / 2)) (1 / 8) 200 [Itv.icc (-1) 4] = some r) (hr : r = .in_)
    (x : List ℚ) (hx : InBox x [Itv.icc (-1) 4]) (hb : windowSet [5 / 8] x = .yes) : stair x = .yes := by
  have hp : InBox [(5 / 8 : ℚ)] [Itv.icc (1 / 2) (3 / 4)] := .cons (by decide +kernel) .nil
  have hX : ([Itv.icc (-1) 4] : Box ℚ).length = 1 ∧ Bnd ([Itv.icc (-1) 4] : Box ℚ) ∧ Solid ([Itv.icc (-1) 4] : Box ℚ) :=
    ⟨rfl, by intro I hI; simp only [List.mem_cons, List.not_mem_nil, or_false] at hI; subst hI; decide +kernel, by unfold Solid; decide +kernel⟩
  exact (C142_erode stairTest_ok (fun p hp => windowTest_ok hp) (fun _ _ _ h => (midBox_interior h).inBox) (C106_bisector (1 / 8) (by norm_num)) hX h hp
    (a := fun x => stair x = .yes) (b := fun x => windowSet [5 / 8] x = .yes)
    (fun x => ⟨id, fun h => by rw [h]; decide⟩) (fun x => ⟨id, fun h => by rw [h]; decide⟩)).1 hr x hx hb

/-- C142, the labels of the leaves after `FastSivia`: here a leaf labelled `IN` has a point out of the superset (its middle only has been tested), and a
leaf which has not been tested is labelled `MAYBE` although it has points out of the superset. The labels cannot be used, only the answer of
`check_empty`. -/
theorem C142_labels_fails :
    (∃ t : TNode ℚ, fastSivia stairTest midBox (largestFirst (1 / 2)) (1 / 2) TB.opInter 20 (leaf [Itv.icc (-2) 3] .maybe) = some t ∧
      ∃ q ∈ t.leaves, q.2 = .in_ ∧ ∃ x, InBox x q.1 ∧ stair x = .no) ∧
    (∃ t : TNode ℚ, fastSivia stairTest midBox (largestFirst (1 / 2)) (1 / 2) TB.opInter 20 (leaf [Itv.icc (-2) 6] .maybe) = some t ∧
      ∃ q ∈ t.leaves, q.2 = .maybe ∧ ∃ x, InBox x q.1 ∧ stair x = .no) := by
  constructor
  · have e : (fastSivia stairTest midBox (largestFirst (1 / 2)) (1 / 2) TB.opInter 20 (leaf [Itv.icc (-2) 3] .maybe)).map TNode.leaves =
        some [([Itv.icc (-2) 3], .in_)] := by decide +kernel
    obtain ⟨t, h1, h2⟩ := Option.map_eq_some_iff.1 e
    exact ⟨t, h1, ([Itv.icc (-2) 3], .in_), by rw [h2]; exact List.mem_cons_self .., rfl, [3], .cons (by decide +kernel) .nil, by decide +kernel⟩
  · have e : (fastSivia stairTest midBox (largestFirst (1 / 2)) (1 / 2) TB.opInter 20 (leaf [Itv.icc (-2) 6] .maybe)).map TNode.leaves =
        some [([Itv.icc (-2) 2], .in_), ([Itv.icc 2 6], .maybe)] := by decide +kernel
    obtain ⟨t, h1, h2⟩ := Option.map_eq_some_iff.1 e
    exact ⟨t, h1, ([Itv.icc 2 6], .maybe), by rw [h2]; exact List.mem_cons_of_mem _ (List.mem_cons_self ..), rfl, [6], .cons (by decide +kernel) .nil, by decide +kernel⟩

end Codac.Props
