import Verif.Thick.EqualBProofs
import Verif.Props.FastSivia
import Verif.Props.SepPaving

/-!
# C146: the contractor on the translations which map a thick set on another one

`CtcAEqualB(A, B, eps)` contracts a box of translations: a translation `p` is a solution if `x + p` is in `A` exactly when `x` is in `B`.
-/

set_option linter.unusedSectionVars false

namespace Codac.Props

open SPav TPav TPav.TNode

section
variable {K : Type*} [Field K] [LinearOrder K] [IsStrictOrderedRing K]

/-- the sum of two points -/
def addPt (x p : List K) : List K := List.zipWith (· + ·) x p

theorem addPt_sub {x p : List K} (h : x.length = p.length) : addPt (addPt x (p.map Neg.neg)) p = x := by
  induction x generalizing p with
  | nil => cases p <;> rfl
  | cons a x ih =>
    cases p with
    | nil => simp at h
    | cons b p =>
      have h' : x.length = p.length := by simpa using h
      change (a + -b + b) :: addPt (addPt x (p.map Neg.neg)) p = a :: x
      rw [ih h', neg_add_cancel_right]

/-- the translations from `B` to `A`: `x + p` is in `a` exactly when `x` is in `b` -/
def Maps (n : Nat) (a b : List K → Prop) (p : List K) : Prop := ∀ x : List K, x.length = n → (a (addPt x p) ↔ b x)

/-- `move` is a test of the translations of the subset of the thick set `S` -/
def MoveFor (S : List K → V3) (move : Box K → Box K → TB) : Prop := ∀ P p, InBox p P → TestFor (fun x => lower (S (addPt x p))) (move P)

/-- C146, `is_AsubsetB`: `OUT` only if, for all the translations of the box, some point of the translated `A` in the box of `B` is not in `B`; and never
another answer than `OUT` or `UNK` -/
theorem C146_subset {n : Nat} {SA SB : List K → V3} {move : Box K → Box K → TB} {testB : Box K → TB} (hA : MoveFor SA move) (hB : TestFor SB testB)
    {mid : Box K → List K} (hmid : ∀ b, b.length = n → Bnd b → Solid b → InBox (mid b) b) {bis : Box K → Box K × Box K} {eps : K}
    (hbis : Cuts eps bis) {fuel : Nat} {X P : Box K} (hX : X.length = n ∧ Bnd X ∧ Solid X) {r : TB}
    (h : subsetTest (move P) testB mid bis eps fuel X = some r) :
    (r = .out ∨ r = .unk) ∧ (r = .out → ∀ p, InBox p P → ∀ a b, SetOf SA a → SetOf SB b → ∃ x, InBox x X ∧ a (addPt x p) ∧ ¬ b x) := by
  unfold subsetTest at h
  obtain ⟨lb, e, rfl⟩ := Option.map_eq_some_iff.1 h
  constructor
  · split
    · exact .inl rfl
    · exact .inr rfl
  · intro hr p hp a b ha hb
    split at hr
    · rename_i hc
      have hT : TestFor (fun x => (lower (lower (SA (addPt x p)))).and (upper (SB x)).not)
          fun b => (move P b).opLower.opRestrict (testB b).opUpper :=
        restrict_test (SA := fun x => upper (SB x)) (SB := fun x => lower (SA (addPt x p)))
          (fun b x hx => C106_change_operators.2.1 _ _ (hB b x hx)) (hA P p hp) C106_change_operators.2.2
      obtain ⟨x, hx, h1⟩ := (C142_answer hT hmid hbis hX e).2 hc
      have h2 : SA (addPt x p) = .yes ∧ SB x = .no := by
        revert h1
        cases SA (addPt x p) <;> cases SB x <;> simp [lower, upper, V3.and, V3.not]
      exact ⟨x, hx, (ha _).1 h2.1, fun hbx => (hb x).2 hbx h2.2⟩
    · cases hr

/-- C146, the test of a box of translations: `OUT` only if no translation of the box maps `B` on `A`, for all the sets between the bounds; and never
another answer than `OUT` or `UNK` -/
theorem C146_test {n : Nat} {SA SB : List K → V3} {moveA moveB : Box K → Box K → TB} {testA testB : Box K → TB} (hmA : MoveFor SA moveA)
    (hmB : MoveFor SB moveB) (hA : TestFor SA testA) (hB : TestFor SB testB) {mid : Box K → List K}
    (hmid : ∀ b, b.length = n → Bnd b → Solid b → InBox (mid b) b) {bis : Box K → Box K × Box K} {eps : K} (hbis : Cuts eps bis) {fuel : Nat}
    {XA XB P : Box K} (hXA : XA.length = n ∧ Bnd XA ∧ Solid XA) (hXB : XB.length = n ∧ Bnd XB ∧ Solid XB) {r : TB}
    (h : equalTest moveA moveB testA testB mid bis eps fuel XA XB P = some r) :
    (r = .out ∨ r = .unk) ∧ (r = .out → ∀ p, p.length = n → InBox p P → ∀ a b, SetOf SA a → SetOf SB b → ¬ Maps n a b p) := by
  unfold equalTest at h
  obtain ⟨b1, e1, h⟩ := Option.bind_eq_some_iff.1 h
  obtain ⟨b2, e2, rfl⟩ := Option.map_eq_some_iff.1 h
  obtain ⟨k1, g1⟩ := C146_subset hmA hB hmid hbis hXB e1
  obtain ⟨k2, g2⟩ := C146_subset hmB hA hmid hbis hXA e2
  constructor
  · rcases k1 with rfl | rfl <;> rcases k2 with rfl | rfl <;> decide
  · intro hr p hl hp a b ha hb hM
    have : b1 = .out ∨ b2 = .out := by
      revert hr
      rcases k1 with rfl | rfl <;> rcases k2 with rfl | rfl <;> decide
    rcases this with rfl | rfl
    · obtain ⟨x, hx, h1, h2⟩ := g1 rfl p hp a b ha hb
      exact h2 ((hM x (hx.length.trans hXB.1)).1 h1)
    · obtain ⟨x, hx, h1, h2⟩ := g2 rfl (p.map Neg.neg) (inBox_neg hp) b a hb ha
      have hxl : x.length = n := hx.length.trans hXA.1
      have := (hM (addPt x (p.map Neg.neg)) (by simp [addPt, hxl, hl])).2 h1
      rw [addPt_sub (hxl.trans hl.symm)] at this
      exact h2 this

/-- C146, the contractor: it removes no translation which maps `B` on `A`, for all the sets between the bounds; and the result is in the box -/
theorem C146_contract {n : Nat} (hn : 0 < n) {SA SB : List K → V3} {moveA moveB : Box K → Box K → TB} {testA testB : Box K → TB} (hmA : MoveFor SA moveA)
    (hmB : MoveFor SB moveB) (hA : TestFor SA testA) (hB : TestFor SB testB) {mid : Box K → List K}
    (hmid : ∀ b, b.length = n → Bnd b → Solid b → InBox (mid b) b) {bis bis' : Box K → Box K × Box K} {eps eps' : K} (hbis : Cuts eps bis)
    (hbis' : IsBis bis') {fuel fuel' : Nat} {XA XB X0 X : Box K} (hXA : XA.length = n ∧ Bnd XA ∧ Solid XA) (hXB : XB.length = n ∧ Bnd XB ∧ Solid XB)
    (h0 : X0.length = n) (h : equalContract (equalTest moveA moveB testA testB mid bis eps fuel XA XB) bis' eps' n fuel' X0 = some X) :
    (∀ v, InBox v X → InBox v X0) ∧ ∀ p, InBox p X0 → ∀ a b, SetOf SA a → SetOf SB b → Maps n a b p → InBox p X := by
  unfold equalContract at h
  obtain ⟨R, e, rfl⟩ := Option.map_eq_some_iff.1 h
  have hR : BoxLe R X0 := equalLoop_tight hn hbis' (fun X hX _ _ => hX) h0 (by simp [BoxLe.refl]) (empty_boxLe h0.symm) e
  constructor
  · intro v hv
    exact ((inBox_inter (h0.trans (hR.length.trans h0).symm)).1 hv).1
  · intro p hp a b ha hb hM
    obtain ⟨hl, hin⟩ := equalLoop_sound (S := Maps n a b) hn hbis' (fun X t hX ht hu q hq hS => by
      obtain ⟨k, g⟩ := C146_test hmA hmB hA hB hmid hbis hXA hXB ht
      rcases k with rfl | rfl
      · exact g rfl q (hq.length.trans hX) hq a b ha hb hS
      · exact hu rfl) (L := [X0]) (by simpa using h0) (by simp) e hM (.inr ⟨X0, by simp, hp⟩)
    exact (inBox_inter (h0.trans hl.symm)).2 ⟨hp, hin⟩

/-- C146, the precision of the contractor, for every test: the result is in every box which contains the sub-boxes of width at most `eps` with the answer
`UNK` -/
theorem C146_tight {n : Nat} (hn : 0 < n) {test : Box K → Option TB} {bis : Box K → Box K × Box K} (hb : IsBis bis) {eps : K} {fuel : Nat} {X0 X H : Box K}
    (h0 : X0.length = n) (hl : H.length = n) (h : equalContract test bis eps n fuel X0 = some X)
    (hH : ∀ Y, BoxLe Y X0 → test Y = some .unk → AtMost eps Y → BoxLe Y H) : BoxLe X H ∧ BoxLe X X0 := by
  unfold equalContract at h
  obtain ⟨R, e, rfl⟩ := Option.map_eq_some_iff.1 h
  have hR : BoxLe R X0 := equalLoop_tight hn hb (fun X hX _ _ => hX) h0 (by simp [BoxLe.refl]) (empty_boxLe h0.symm) e
  have hR' : BoxLe R H := equalLoop_tight hn hb (fun X hX ht hd => hH X hX ht (atMost_of hd)) h0 (by simp [BoxLe.refl]) (empty_boxLe hl.symm) e
  exact ⟨(inter_le_right hR.length.symm).trans hR', inter_le_left hR.length.symm⟩

/-- C146: the test and the contractor end, with the bisector `LargestFirst`, on bounded boxes -/
theorem C146_terminates [Archimedean K] {n : Nat} (hn : 0 < n) (moveA moveB : Box K → Box K → TB) (testA testB : Box K → TB) (mid : Box K → List K)
    {ratio : K} (h0 : 0 < ratio) (h1 : ratio < 1) {eps eps' : K} (he : 0 < eps) (he' : 0 < eps') {XA XB X0 : Box K}
    (hXA : XA.length = n ∧ Bnd XA ∧ Solid XA) (hXB : XB.length = n ∧ Bnd XB ∧ Solid XB) (hX0 : X0.length = n ∧ Bnd X0) :
    ∃ N, ∀ fuel, N ≤ fuel → ∃ X, equalContract (equalTest moveA moveB testA testB mid (largestFirst ratio) eps fuel XA XB) (largestFirst ratio) eps' n fuel X0 =
      some X := by
  have key : ∀ Y : Box K, Y.length = n ∧ Bnd Y ∧ Solid Y → ∃ N, ∀ fuel, N ≤ fuel → ∀ t1 t2 : Box K → TB,
      ∃ r, subsetTest t1 t2 mid (largestFirst ratio) eps fuel Y = some r := by
    intro Y hY
    refine ⟨wtQueue (max ratio (1 - ratio)) eps (leaf Y .maybe) [[]], fun fuel hf t1 t2 => ?_⟩
    obtain ⟨t', e⟩ := fastSivLoop_terminates (k := n) (t := leaf Y .maybe) (fun b => (t1 b).opLower.opRestrict (t2 b).opUpper) mid
      (largestFirst_isBis ratio) (largestFirst_spec h0 h1) (le_max_of_le_left h0.le) (max_lt h1 (by linarith)) he (largestFirst_isCut h0 h1 he.le)
      TB.opInter hY (List.pairwise_singleton _ _)
      (by intro p hp; simp only [List.mem_cons, List.not_mem_nil, or_false] at hp; subst hp; exact ⟨_, rfl⟩) hf
    unfold subsetTest fastSivia
    rw [e]
    exact ⟨_, rfl⟩
  obtain ⟨NA, gA⟩ := key XA hXA
  obtain ⟨NB, gB⟩ := key XB hXB
  refine ⟨max (max NA NB) (wtBoxes (max ratio (1 - ratio)) eps' [X0]), fun fuel hf => ?_⟩
  obtain ⟨R, e⟩ := equalLoop_terminates (R := Box.empty n) (fuel := fuel)
    (test := equalTest moveA moveB testA testB mid (largestFirst ratio) eps fuel XA XB) hn (largestFirst_isBis ratio) (largestFirst_spec h0 h1)
    (le_max_of_le_left h0.le) (max_lt h1 (by linarith)) he' (fun X => by
      obtain ⟨r1, e1⟩ := gB fuel (by omega) (moveA X) testB
      obtain ⟨r2, e2⟩ := gA fuel (by omega) (moveB (negBox X)) testA
      unfold equalTest
      rw [e1, e2]
      exact ⟨_, rfl⟩) (L := [X0]) (by simpa using hX0) (by omega)
  unfold equalContract
  rw [e]
  exact ⟨_, rfl⟩

theorem not_atMost_of {eps : K} (he : 0 ≤ eps) {X : Box K} (h : maxDiamGt eps X = true) : ¬ AtMost eps X := by
  intro hA
  unfold maxDiamGt at h
  rw [Bool.not_eq_true', List.all_eq_false] at h
  obtain ⟨I, hI, hd⟩ := h
  have key := hA I hI
  have ha := le_abs_self eps
  have ha0 := abs_nonneg eps
  match I, hd, key with
  | .empty, hd, _ => exact hd (decide_eq_true he)
  | .mk (some l) (some u) hh, hd, key =>
    refine hd ?_
    simp only [diamLe, decide_eq_true_eq]
    exact key l ⟨le_refl l, hh⟩ u ⟨hh, le_refl u⟩
  | .mk none (some u) _, _, key =>
    have := key (u - |eps| - 1) ⟨trivial, (by linarith : u - |eps| - 1 ≤ u)⟩ u ⟨trivial, le_refl u⟩
    linarith
  | .mk (some l) none _, _, key =>
    have := key l ⟨le_refl l, trivial⟩ (l + |eps| + 1) ⟨(by linarith : l ≤ l + |eps| + 1), trivial⟩
    linarith
  | .mk none none _, _, key =>
    have := key 0 ⟨trivial, trivial⟩ (|eps| + 1) ⟨trivial, trivial⟩
    linarith

/-- the number of boxes of the bisection tree of `X`: a box is bisected if the answer of the test may be refined and the box is wider than `eps` -/
inductive TreeSize (test : Box K → TB) (bis : Box K → Box K × Box K) (eps : K) : Box K → Nat → Prop
  | stop {X : Box K} : (test X ∈ [TB.in_, .out, .maybe, .empty] ∨ AtMost eps X) → TreeSize test bis eps X 1
  | cut {X : Box K} {a b : Nat} : test X ∈ [TB.unk, .maybeIn, .maybeOut] → ¬ AtMost eps X → TreeSize test bis eps (bis X).1 a →
      TreeSize test bis eps (bis X).2 b → TreeSize test bis eps X (1 + a + b)

/-- C146, `NbIteration`: the returned number is the number of boxes of the bisection tree, which is odd -/
theorem C146_iterations {test : Box K → TB} {bis : Box K → Box K × Box K} {eps : K} (he : 0 ≤ eps) {fuel : Nat} {X0 : Box K} {r : Nat}
    (h : nbIteration test bis eps fuel X0 = some r) : TreeSize test bis eps X0 r ∧ r % 2 = 1 := by
  obtain ⟨l, hl, e⟩ := nbLoop_counts h
  obtain ⟨a, l', ha, hl', rfl⟩ := List.forall₂_cons_left_iff.1 hl
  cases hl'
  have : r = a := by simpa using e
  subst this
  clear h hl e
  constructor
  · induction ha with
    | @stop X h =>
      refine .stop (h.imp (fun h => ?_) atMost_of)
      revert h
      cases test X <;> decide
    | @cut X a b h1 h2 _ _ i1 i2 =>
      refine .cut ?_ (fun h => ?_) i1 i2
      · revert h1
        cases test X <;> decide
      · exact not_atMost_of he h2 h
  · induction ha with
    | stop _ => rfl
    | cut _ _ _ _ i1 i2 => omega

/-- C146: `NbIteration` ends on a bounded box -/
theorem C146_iterations_terminates [Archimedean K] {n : Nat} (hn : 0 < n) (test : Box K → TB) {ratio : K} (h0 : 0 < ratio) (h1 : ratio < 1) {eps : K}
    (he : 0 < eps) {X0 : Box K} (hX : X0.length = n ∧ Bnd X0) : ∃ N, ∀ fuel, N ≤ fuel → ∃ r, nbIteration test (largestFirst ratio) eps fuel X0 = some r :=
  ⟨_, fun _ hf => nbLoop_terminates hn (largestFirst_isBis ratio) (largestFirst_spec h0 h1) (le_max_of_le_left h0.le) (max_lt h1 (by linarith)) he test
    (by simpa using hX) hf⟩

end

/-! ### Cases -/

/-- the test of the translations of the interval `[q-1,q]` -/
def moveWindow (q : ℚ) : Box ℚ → Box ℚ → TB
  | [.mk (some c) (some d) _], b => windowTest (Itv.icc (q - d) (q - c)) b
  | _, _ => .unk

theorem moveWindow_ok (q : ℚ) : MoveFor (windowSet [q]) (moveWindow q) := by
  intro P p hp b x hx
  have hunk : ∀ s : V3, TB.unk.has s = true := by intro s; cases s <;> rfl
  cases hp with
  | nil => exact hunk _
  | @cons p I ps P hp hps =>
    match I, P, hps, hp with
    | .mk (some c) (some d) _, [], .nil, hp =>
      have h1 : c ≤ p := hp.1
      have h2 : p ≤ d := hp.2
      have h := windowTest_ok (P := Itv.icc (q - d) (q - c)) (p := [q - p]) (.cons (Itv.mem_icc.2 ⟨by linarith, by linarith⟩) .nil) b x hx
      change (windowTest (Itv.icc (q - d) (q - c)) b).has (lower (windowSet [q] (addPt x [p]))) = true
      match x, b, hx, h with
      | [], _, _, h => exact h
      | [y], _, _, h =>
        have e : lower (windowSet [q] (addPt [y] [p])) = windowSet [q - p] [y] := by
          change lower (if q - 1 ≤ y + p ∧ y + p ≤ q then V3.yes else .no) = if q - p - 1 ≤ y ∧ y ≤ q - p then V3.yes else .no
          by_cases g : q - 1 ≤ y + p ∧ y + p ≤ q
          · rw [if_pos g, if_pos ⟨by linarith [g.1], by linarith [g.2]⟩]; rfl
          · rw [if_neg g, if_neg fun g' => g ⟨by linarith [g'.1], by linarith [g'.2]⟩]; rfl
        rw [e]
        exact h
      | _ :: _ :: _, .mk (some _) (some _) _ :: _ :: _, _, _ => exact hunk _
      | _ :: _ :: _, .mk none _ _ :: _ :: _, _, _ => exact hunk _
      | _ :: _ :: _, .mk (some _) none _ :: _ :: _, _, _ => exact hunk _
      | _ :: _ :: _, .empty :: _ :: _, _, _ => exact hunk _
    | .mk none _ _, [], .nil, _ => exact hunk _
    | .mk (some _) none _, [], .nil, _ => exact hunk _
    | .mk none _ _, _ :: _, _, _ => exact hunk _
    | .mk (some _) none _, _ :: _, _, _ => exact hunk _
    | .mk (some _) (some _) _, _ :: _, _, _ => exact hunk _

/-- the contraction of the translations in `[-4,0]` which map `[2,3]` on `[0,1]`: the solution is `-2` -/
def windowContract : Option (Box ℚ) :=
  equalContract (equalTest (moveWindow 1) (moveWindow 3) (windowTest (Itv.point 1)) (windowTest (Itv.point 3)) midBox (largestFirst (1 / 2)) (1 / 8) 200
    [Itv.icc (-2) 6] [Itv.icc (-2) 6]) (largestFirst (1 / 2)) (1 / 4) 1 100 [Itv.icc (-4) 0]

example : windowContract = some [Itv.icc (-(9 / 4)) (-(7 / 4))] := by decide +kernel

/-- `C146_contract` applies -/
example (X : Box ℚ) (h : windowContract = some X) : InBox [-2] X := by
  have hw : ∀ l u : ℚ, l < u → ([Itv.icc l u] : Box ℚ).length = 1 ∧ Bnd ([Itv.icc l u] : Box ℚ) ∧ Solid ([Itv.icc l u] : Box ℚ) := by
    intro l u hlu
    rw [Itv.icc_eq_mk hlu.le]
    refine ⟨rfl, ?_, ?_⟩
    · intro I hI
      simp only [List.mem_cons, List.not_mem_nil, or_false] at hI
      subst hI
      rfl
    · unfold Solid
      simp [Itv.isDegenerated, hlu.ne]
  have hset : ∀ q : ℚ, SetOf (windowSet [q]) fun x => windowSet [q] x = .yes := fun q x => ⟨id, fun h => by rw [h]; decide⟩
  refine (C146_contract Nat.one_pos (moveWindow_ok 1) (moveWindow_ok 3) (windowTest_ok (.cons (Itv.mem_point.2 rfl) .nil))
    (windowTest_ok (.cons (Itv.mem_point.2 rfl) .nil)) (fun _ _ _ h => (midBox_interior h).inBox) (C106_bisector (1 / 8) (by norm_num))
    (largestFirst_isBis _) (hw _ _ (by norm_num)) (hw _ _ (by norm_num)) rfl h).2 [-2] (.cons (Itv.mem_icc.2 (by norm_num)) .nil)
    _ _ (hset 1) (hset 3) ?_
  intro x hx
  match x, hx with
  | [y], _ =>
    change (if (1 : ℚ) - 1 ≤ y + -2 ∧ y + -2 ≤ 1 then V3.yes else .no) = .yes ↔ (if (3 : ℚ) - 1 ≤ y ∧ y ≤ 3 then V3.yes else .no) = .yes
    have : ((1 : ℚ) - 1 ≤ y + -2 ∧ y + -2 ≤ 1) ↔ ((3 : ℚ) - 1 ≤ y ∧ y ≤ 3) := by
      constructor <;> rintro ⟨h1, h2⟩ <;> constructor <;> linarith
    simp only [this]

/-- the two answers of the test: `[-4,-7/2]` has no solution, `[-5/2,-3/2]` is not decided -/
example : equalTest (moveWindow 1) (moveWindow 3) (windowTest (Itv.point 1)) (windowTest (Itv.point 3)) midBox (largestFirst (1 / 2)) (1 / 8) 200
      [Itv.icc (-2) 6] [Itv.icc (-2) 6] [Itv.icc (-4) (-(7 / 2))] = some .out ∧
    equalTest (moveWindow 1) (moveWindow 3) (windowTest (Itv.point 1)) (windowTest (Itv.point 3)) midBox (largestFirst (1 / 2)) (1 / 8) 200
      [Itv.icc (-2) 6] [Itv.icc (-2) 6] [Itv.icc (-(5 / 2)) (-(3 / 2))] = some .unk := by decide +kernel

/-- `NbIteration` on `[0,4]` with the thick set of the subset `x ≤ 1` and the superset `x ≤ 2` -/
example : nbIteration stairTest (largestFirst (1 / 2)) (1 / 2) 50 stairBox = some 11 := by decide +kernel

end Codac.Props
