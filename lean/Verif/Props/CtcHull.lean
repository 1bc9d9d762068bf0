import Verif.Ctc.CtcHull
import Verif.Props.SepPaving

/-!
# C103: the hull of a set given by a separator (`CtcHull`), unions of separators with bounding boxes (`SepUnionBbox`)
-/

set_option linter.unusedSectionVars false

namespace Codac.Props
open Codac.SPav Codac.HullCtc

variable {K : Type*} [Field K] [LinearOrder K] [IsStrictOrderedRing K]

/-- the two points differ by at most `eps` in each component -/
def Near (eps : K) (v w : List K) : Prop := List.Forall₂ (fun a b => |a - b| ≤ eps) v w

/-- `CtcHull` is a contractor for the set of its separator: the result is in the box, and the points of the set in the box are kept. -/
theorem C103_hull {n : Nat} (hn : 0 < n) {S : List K → Prop} {s : Box K → Box K → Box K × Box K} (hs : IsSep n S s)
    {diff : Box K → Box K → List (Box K)} (hd : DiffOk n diff) {bis : Box K → Box K × Box K} (hb : IsBis bis) {eps : K} {fuel : Nat}
    {B R : Box K} (hB : B.length = n) (h : HullCtc.contract s diff bis eps fuel B = some R) :
    BoxLe R B ∧ ∀ v, InBox v B → S v → InBox v R := by
  unfold HullCtc.contract at h
  rw [Option.map_eq_some_iff] at h
  obtain ⟨xi, h, rfl⟩ := h
  obtain ⟨r1, r2⟩ := loop_sound hn hs hd hb hB (q := [B]) (by simp [BoxLe.refl]) (empty_boxLe rfl) h
  have hl : B.length = xi.length := r1.length.symm
  exact ⟨inter_le_left hl, fun v hv hS => (inBox_inter hl).2 ⟨hv, r2 v hS (.inr ⟨B, by simp, hv⟩)⟩⟩

/-- The contraction ends, for a bounded box and `eps > 0`. -/
theorem C103_hull_terminates [Archimedean K] {n : Nat} (hn : 0 < n) {S : List K → Prop} {s : Box K → Box K → Box K × Box K}
    (hs : IsSep n S s) {diff : Box K → Box K → List (Box K)} {bis : Box K → Box K × Box K} (hb : IsBis bis) {c : K}
    (hl : IsLargestFirst c bis) (hc0 : 0 ≤ c) (hc1 : c < 1) {eps : K} (he : 0 < eps) {B : Box K} (hB : B.length = n)
    (hu : ∀ I ∈ B, I.isUnbounded = false) : ∃ N, ∀ fuel, N ≤ fuel → ∃ R, HullCtc.contract s diff bis eps fuel B = some R := by
  refine ⟨2 ^ (Sivia.boxRank c eps B + 1) - 1, fun fuel hf => ?_⟩
  obtain ⟨R, hR⟩ := loop_some (diff := diff) hn hs hb hl hc0 hc1 he hB hu (fuel := fuel) (q := [B]) (xi := Box.empty B.length)
    (by simp [BoxLe.refl]) (by simpa using hf)
  exact ⟨B.inter R, by simp [HullCtc.contract, hR]⟩

/-- The result is the hull of the set, up to `eps`: every box `Y` that has the points of `S` in the box has, at `eps` or less, each point of
the result. This for a separator which leaves no flat box (unless it is small), and such that there is a point of `S` in each box of width
at most `eps` that it leaves undecided. -/
theorem C103_hull_tight {n : Nat} (hn : 0 < n) {S : List K → Prop} {s : Box K → Box K → Box K × Box K} (hs : IsSep n S s)
    {diff : Box K → Box K → List (Box K)} (hd : DiffOk n diff) (hdd : DenseDiff n diff) {bis : Box K → Box K × Box K} (hb : IsBis bis)
    (hbs : ∀ X, Solid X → Solid (bis X).1 ∧ Solid (bis X).2) {eps : K} (he : 0 ≤ eps) {B : Box K} (hB : B.length = n) (hBs : Solid B)
    (hnorm : ∀ X : Box K, X.length = n → (s X X).1.isEmpty = true ∨ ∃ v, InBox v (s X X).1)
    (hflat : ∀ X, BoxLe X B → Solid X → (rest s X).isEmpty ≠ true → maxDiamGt eps (rest s X) = true → Solid (rest s X))
    (hund : ∀ X, BoxLe X B → (∃ v, InBox v (rest s X)) → AtMost eps (rest s X) → ∃ v, InBox v (rest s X) ∧ S v)
    {fuel : Nat} {R : Box K} (h : HullCtc.contract s diff bis eps fuel B = some R) {Y : Box K} (hY : Y.length = n)
    (hS : ∀ v, InBox v B → S v → InBox v Y) : ∀ v, InBox v R → ∃ w, InBox w Y ∧ Near eps v w := by
  unfold HullCtc.contract at h
  rw [Option.map_eq_some_iff] at h
  obtain ⟨xi, h, rfl⟩ := h
  obtain ⟨r1, _⟩ := loop_sound hn hs hd hb hB (q := [B]) (by simp [BoxLe.refl]) (empty_boxLe rfl) h
  have hl : B.length = xi.length := r1.length.symm
  have key := loop_tight hn hs hdd hd hb hbs hnorm hB hflat (Y := Y.map (inflate eps he)) (by simp [hY])
    (fun v hv hSv => (inBox_inflate he).2 ⟨v, hS v hv hSv, List.forall₂_same.mpr fun _ _ => by simpa using he⟩)
    (fun X hX hw v hv => by
      have hA := atMost_of hw
      obtain ⟨w, hw1, hw2⟩ := hund X hX ⟨v, hv⟩ hA
      have hXn := hX.length.trans hB
      refine (inBox_inflate he).2 ⟨w, hS w ((hw1.of_le (rest_le hs hXn).1).of_le hX) hw2, ?_⟩
      clear hw2 hw
      generalize rest s X = Z at *
      induction hv generalizing w with
      | nil => cases hw1; exact .nil
      | @cons a I v Z h1 h2 ih =>
        cases hw1 with
        | cons g1 g2 =>
          refine .cons ?_ (ih _ (fun J hJ => hA J (List.mem_cons_of_mem _ hJ)) g2)
          rw [abs_le]
          constructor
          · linarith [hA I (by simp) _ h1 _ g1]
          · linarith [hA I (by simp) _ g1 _ h1])
    (q := [B]) (by simp [BoxLe.refl, hBs]) (.inr (by
      obtain ⟨I, B', rfl⟩ := List.exists_cons_of_ne_nil (ne_nil_of_pos hn hB)
      rfl)) h
  intro v hv
  exact (inBox_inflate he).1 (key.mem ((inBox_inter hl).1 hv).2)

/-- `SepUnionBbox` is a separator for the union of the sets, called with twice the same box, when each set is in its bounding box. -/
theorem C103_union_bbox {n : Nat} {L : List ((Box K → Box K → Box K × Box K) × Box K)} {T : List (List K → Prop)}
    (hL : List.Forall₂ (fun e S => IsSep n S e.1 ∧ e.2.length = n ∧ ∀ v, v.length = n → S v → InBox v e.2) L T) {X : Box K} (hX : X.length = n) :
    ∃ r, unionBbox L X X = some r ∧ BoxLe r.1 X ∧ BoxLe r.2 X ∧ (∀ v, InBox v X → (∀ S ∈ T, ¬ S v) → InBox v r.1) ∧
      ∀ v, InBox v X → (∃ S ∈ T, S v) → InBox v r.2 := by
  refine ⟨_, if_pos rfl, ?_⟩
  obtain ⟨r1, r2, r3, r4⟩ := bboxFold (x := X.inter X) hX (by rw [Box.length_inter rfl, hX])
    (fun v hv => (inBox_inter rfl).2 ⟨hv, hv⟩) hL (st := (X, Box.empty X.length)) (BoxLe.refl X) (empty_boxLe rfl)
  exact ⟨r1, r2, fun v hv h => r3 v hv h, fun v hv h => r4 v (.inr ⟨hv, h⟩)⟩

/-- With no set that meets the box, the whole box is outside. -/
theorem C103_union_bbox_far {n : Nat} {L : List ((Box K → Box K → Box K × Box K) × Box K)} {X : Box K} (hX : X.length = n)
    (hL : ∀ e ∈ L, e.2.length = n ∧ ∀ v, InBox v X → ¬ InBox v e.2) : unionBbox L X X = some (X, Box.empty n) := by
  have key : ∀ st : Box K × Box K, L.foldl (bboxStep (X.inter X) X) st = st := by
    intro st
    induction L with
    | nil => rfl
    | cons e L ih =>
      obtain ⟨h1, h2⟩ := hL e (by simp)
      have hs : bboxStep (X.inter X) X st e = st := by
        unfold bboxStep
        rw [if_pos]
        by_contra hne
        have lX : (X.inter X).length = e.2.length := by rw [Box.length_inter rfl, hX, h1]
        obtain ⟨v, hv⟩ := inter_point lX hne
        have := (inBox_inter lX).1 hv
        exact h2 v ((inBox_inter rfl).1 this.1).1 this.2
      rw [List.foldl_cons, hs]
      exact ih fun e' he' => hL e' (List.mem_cons_of_mem _ he')
  unfold unionBbox
  rw [if_pos rfl, key, hX]

/-! ### Examples -/

/-- the hull of the numbers below 1 in [0, 8] -/
def hullBelow : Option (Box ℚ) := HullCtc.contract (sepBelow 1 0) boxDiff halfLine (1 / 4) 20 (line 0 8)

example : IsSep 1 (below 1) (sepBelow 1 0) ∧ DiffOk (K := ℚ) 1 boxDiff ∧ DenseDiff (K := ℚ) 1 boxDiff ∧ IsBis halfLine ∧
    (∀ X : Box ℚ, Solid X → Solid (halfLine X).1 ∧ Solid (halfLine X).2) ∧ Solid (line 0 8) ∧ hullBelow = some (line 0 1) :=
  ⟨sepBelow_isSep 1 le_rfl, boxDiff_ok 1, boxDiff_dense 1, largestFirst_isBis _, largestFirst_solid (by norm_num) (by norm_num), by unfold Solid; decide +kernel,
    by decide +kernel⟩

/-- the hypotheses of `C103_hull_tight` on the separator -/
example : (∀ X : Box ℚ, X.length = 1 → (sepBelow 1 0 X X).1.isEmpty = true ∨ ∃ v, InBox v (sepBelow 1 0 X X).1) ∧
    (∀ X : Box ℚ, BoxLe X (line 0 8) → maxDiamGt (1 / 4) (rest (sepBelow 1 0) X) = false) ∧
    ∀ X : Box ℚ, BoxLe X (line 0 8) → (∃ v, InBox v (rest (sepBelow 1 0) X)) → ∃ v, InBox v (rest (sepBelow 1 0) X) ∧ below 1 v := by
  have mem : ∀ (X : Box ℚ), X.length = 1 → ∀ v, InBox v (rest (sepBelow 1 0) X) → v = [1] := by
    intro X hX v hv
    have hs := sepBelow_isSep 1 (w := 0) le_rfl
    have hv2 := hv.of_le (rest_le hs hX).2
    have e1 := (hs.le_in X X hX hX).length
    have e2 := (hs.le_out X X hX hX).length
    have hv3 := (inBox_inter (e1.trans e2.symm)).1 hv2
    obtain ⟨I, rfl⟩ := line_of_length hX
    obtain ⟨a, rfl, h1⟩ := inLine_iff.1 (show InBox v [I ⊓ Itv.ofBounds (some (1 - 0)) none] from hv3.1)
    obtain ⟨b, hb, h2⟩ := inLine_iff.1 (show InBox [a] [I ⊓ Itv.ofBounds none (some (1 + 0))] from hv3.2)
    obtain rfl : a = b := by simpa using hb
    have g1 := mem_ofBounds_above.1 (Itv.mem_inf.1 h1).2
    have g2 := mem_ofBounds_below.1 (Itv.mem_inf.1 h2).2
    have : a = 1 := by linarith
    rw [this]
  refine ⟨fun X hX => ?_, fun X hX => ?_, fun X hX ⟨v, hv⟩ => ⟨v, hv, ?_⟩⟩
  · obtain ⟨I, rfl⟩ := line_of_length hX
    by_cases h : (I ⊓ Itv.ofBounds (some (1 - 0)) none) = ⊥
    · left
      show (I ⊓ Itv.ofBounds (some ((1 : ℚ) - 0)) none).isEmpty = true
      rw [h]; rfl
    · right
      obtain ⟨v, hv⟩ := exists_inBox (X := [I ⊓ Itv.ofBounds (some ((1 : ℚ) - 0)) none]) (by simpa using h)
      exact ⟨v, hv⟩
  · have hX1 : X.length = 1 := hX.length
    have hl1 : (rest (sepBelow 1 0) X).length = 1 := ((rest_le (sepBelow_isSep 1 (w := 0) le_rfl) hX1).1).length.trans hX1
    obtain ⟨J, hJ⟩ := line_of_length hl1
    have hm : ∀ a ∈ J, a = 1 := fun a ha => by simpa using mem X hX1 [a] (by rw [hJ]; exact .cons ha .nil)
    rw [hJ]
    cases J with
    | empty => decide +kernel
    | mk lo hi p =>
      cases lo with
      | none =>
        cases hi with
        | none => exact absurd (hm 0 ⟨trivial, trivial⟩) (by norm_num)
        | some u =>
          have h1 := hm u ⟨trivial, le_refl u⟩
          have h2 := hm (u - 1) ⟨trivial, (by show u - 1 ≤ u; linarith)⟩
          linarith
      | some l =>
        cases hi with
        | none =>
          have h1 := hm l ⟨le_refl l, trivial⟩
          have h2 := hm (l + 1) ⟨(by show l ≤ l + 1; linarith), trivial⟩
          linarith
        | some u =>
          have p' : l ≤ u := p
          have h1 := hm l ⟨le_refl l, p'⟩
          have h2 := hm u ⟨p', le_refl u⟩
          subst h1; subst h2
          simp [maxDiamGt, diamLe]
  · rw [mem X hX.length v hv]; norm_num [below]

/-- numbers below 1 or above 6, with the bounding boxes `]-oo,1]` and `[6,+oo[` -/
def bboxList : List ((Box ℚ → Box ℚ → Box ℚ × Box ℚ) × Box ℚ) :=
  [(sepBelow 1 0, [Itv.ofBounds none (some 1)]), (sepAbove 6, [Itv.ofBounds (some 6) none])]

theorem bboxList_ok : List.Forall₂ (fun (e : (Box ℚ → Box ℚ → Box ℚ × Box ℚ) × Box ℚ) S => IsSep 1 S e.1 ∧ e.2.length = 1 ∧ ∀ v, v.length = 1 → S v → InBox v e.2)
    bboxList [below 1, above 6] := by
  refine .cons ⟨sepBelow_isSep 1 le_rfl, rfl, fun v hl hv => ?_⟩ (.cons ⟨sepAbove_isSep 6, rfl, fun v hl hv => ?_⟩ .nil)
  · obtain ⟨a, rfl⟩ := List.length_eq_one_iff.1 hl
    exact .cons (mem_ofBounds_below.2 (hv a (by simp))) .nil
  · obtain ⟨a, rfl⟩ := List.length_eq_one_iff.1 hl
    exact .cons (mem_ofBounds_above.2 (hv a (by simp))) .nil

example : unionBbox bboxList (line 0 8) (line 0 8) = some ([Itv.icc 1 6], [Itv.icc 0 8]) ∧
    unionBbox bboxList (line 2 4) (line 2 4) = some (line 2 4, [⊥]) := ⟨by decide +kernel, by decide +kernel⟩

/-- The two boxes returned by `separate` cannot be given to a new call (as a fixed point of separators would): the assertion fails. -/
theorem C103_union_bbox_twice_fails : (unionBbox bboxList (line 0 8) (line 0 8)).isSome = true ∧
    ((unionBbox bboxList (line 0 8) (line 0 8)).bind fun r => unionBbox bboxList r.1 r.2) = none := ⟨by decide +kernel, by decide +kernel⟩

end Codac.Props
