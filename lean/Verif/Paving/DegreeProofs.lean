import Verif.Paving.DegreeGeom
import Mathlib.Algebra.BigOperators.Group.Finset.Basic

/-!
# The topological degree of a function without zero is zero

Link between the functions of `Verif/Paving/Degree.lean` and the sums of `Verif/Paving/Winding.lean`.
-/

set_option linter.unusedSectionVars false

namespace Codac

/-- the paving of a bounded box of the plane obtained by cutting boxes in two: what `Paving::bisect` builds, codac_Paving.cpp:130-151 -/
def Paving.Cut {K : Type*} [LinearOrder K] : Paving K → Prop
  | leaf b _ => ∃ x0 x1 y0 y1 : K, x0 < x1 ∧ y0 < y1 ∧ b = [Itv.icc x0 x1, Itv.icc y0 y1]
  | node b _ l r => l.Cut ∧ r.Cut ∧ ∃ x0 x1 y0 y1 m : K, b = [Itv.icc x0 x1, Itv.icc y0 y1] ∧
      ((x0 < m ∧ m < x1 ∧ y0 < y1 ∧ l.box = [Itv.icc x0 m, Itv.icc y0 y1] ∧ r.box = [Itv.icc m x1, Itv.icc y0 y1]) ∨
        (y0 < m ∧ m < y1 ∧ x0 < x1 ∧ l.box = [Itv.icc x0 x1, Itv.icc y0 m] ∧ r.box = [Itv.icc x0 x1, Itv.icc m y1]))

namespace Deg
open Paving

/-- the rectangle of a leaf -/
noncomputable def rect (A : Leaf ℝ) : RR := rectOf A.box

theorem cut_box {P : Paving ℝ} (h : P.Cut) : ∃ R : RR, R.Pos ∧ P.box = R.box := by
  cases P with
  | leaf b v =>
    obtain ⟨x0, x1, y0, y1, h1, h2, h3⟩ := h
    exact ⟨⟨x0, x1, y0, y1⟩, ⟨h1, h2⟩, h3⟩
  | node b v l r =>
    obtain ⟨_, _, x0, x1, y0, y1, m, h1, h2⟩ := h
    refine ⟨⟨x0, x1, y0, y1⟩, ?_, h1⟩
    rcases h2 with h2 | h2
    · exact ⟨h2.1.trans h2.2.1, h2.2.2.1⟩
    · exact ⟨h2.2.2.1, h2.1.trans h2.2.1⟩

/-- the leaves cut the rectangle of the paving -/
theorem cut_leaves {P : Paving ℝ} (h : P.Cut) (t : Nat) (path : List Bool) {R : RR} (hR : R.Pos) (e : P.box = R.box) :
    (∀ A ∈ P.leaves t path, (rect A).Pos ∧ A.box = (rect A).box ∧ R.x0 ≤ (rect A).x0 ∧ (rect A).x1 ≤ R.x1 ∧ R.y0 ≤ (rect A).y0 ∧
      (rect A).y1 ≤ R.y1) ∧ ∀ x y, R.HMem x y → One (P.leaves t path) fun A => (rect A).HMem x y := by
  induction P generalizing path R with
  | leaf b v =>
    have hb : b = R.box := e
    subst hb
    have hr : rect ⟨t, path, R.box, v⟩ = R := rectOf_box hR.1.le hR.2.le
    refine ⟨?_, ?_⟩
    · intro A hA
      obtain rfl := List.mem_singleton.1 hA
      rw [hr]
      exact ⟨hR, rfl, le_rfl, le_rfl, le_rfl, le_rfl⟩
    · intro x y hxy
      refine ⟨_, List.mem_singleton.2 rfl, ?_, fun R' hR' _ => List.mem_singleton.1 hR'⟩
      change (rect ⟨t, path, R.box, v⟩).HMem x y
      rw [hr]; exact hxy
  | node b v l r ihl ihr =>
    obtain ⟨hl, hr, x0, x1, y0, y1, m, h1, h2⟩ := h
    have hE : R = ⟨x0, x1, y0, y1⟩ := by
      have e' : R.box = (RR.mk x0 x1 y0 y1).box := e.symm.trans h1
      rw [← rectOf_box hR.1.le hR.2.le, e', rectOf_box]
      · rcases h2 with h2 | h2
        · exact (h2.1.trans h2.2.1).le
        · exact h2.2.2.1.le
      · rcases h2 with h2 | h2
        · exact h2.2.2.1.le
        · exact (h2.1.trans h2.2.1).le
    subst hE
    have glue : ∀ {L1 L2 : RR} (p1 p2 : List Bool),
        ((∀ A ∈ l.leaves t p1, (rect A).Pos ∧ A.box = (rect A).box ∧ L1.x0 ≤ (rect A).x0 ∧ (rect A).x1 ≤ L1.x1 ∧ L1.y0 ≤ (rect A).y0 ∧
          (rect A).y1 ≤ L1.y1) ∧ ∀ x y, L1.HMem x y → One (l.leaves t p1) fun A => (rect A).HMem x y) →
        ((∀ A ∈ r.leaves t p2, (rect A).Pos ∧ A.box = (rect A).box ∧ L2.x0 ≤ (rect A).x0 ∧ (rect A).x1 ≤ L2.x1 ∧ L2.y0 ≤ (rect A).y0 ∧
          (rect A).y1 ≤ L2.y1) ∧ ∀ x y, L2.HMem x y → One (r.leaves t p2) fun A => (rect A).HMem x y) →
        (x0 ≤ L1.x0 ∧ L1.x1 ≤ x1 ∧ y0 ≤ L1.y0 ∧ L1.y1 ≤ y1) → (x0 ≤ L2.x0 ∧ L2.x1 ≤ x1 ∧ y0 ≤ L2.y0 ∧ L2.y1 ≤ y1) →
        (∀ x y, (RR.mk x0 x1 y0 y1).HMem x y → L1.HMem x y ∨ L2.HMem x y) → (∀ x y, L1.HMem x y → ¬ L2.HMem x y) →
        (∀ A ∈ l.leaves t p1 ++ r.leaves t p2, (rect A).Pos ∧ A.box = (rect A).box ∧ x0 ≤ (rect A).x0 ∧ (rect A).x1 ≤ x1 ∧
          y0 ≤ (rect A).y0 ∧ (rect A).y1 ≤ y1) ∧
          ∀ x y, (RR.mk x0 x1 y0 y1).HMem x y → One (l.leaves t p1 ++ r.leaves t p2) fun A => (rect A).HMem x y := by
      intro L1 L2 p1 p2 g1 g2 i1 i2 hor hdis
      have sub1 : ∀ A ∈ l.leaves t p1, ∀ x y, (rect A).HMem x y → L1.HMem x y := by
        intro A hA x y hm
        obtain ⟨_, _, k1, k2, k3, k4⟩ := g1.1 A hA
        exact ⟨k1.trans hm.1, hm.2.1.trans_le k2, k3.trans hm.2.2.1, hm.2.2.2.trans_le k4⟩
      have sub2 : ∀ A ∈ r.leaves t p2, ∀ x y, (rect A).HMem x y → L2.HMem x y := by
        intro A hA x y hm
        obtain ⟨_, _, k1, k2, k3, k4⟩ := g2.1 A hA
        exact ⟨k1.trans hm.1, hm.2.1.trans_le k2, k3.trans hm.2.2.1, hm.2.2.2.trans_le k4⟩
      constructor
      · intro A hA
        rcases List.mem_append.1 hA with hA | hA
        · obtain ⟨k0, k0', k1, k2, k3, k4⟩ := g1.1 A hA
          exact ⟨k0, k0', i1.1.trans k1, k2.trans i1.2.1, i1.2.2.1.trans k3, k4.trans i1.2.2.2⟩
        · obtain ⟨k0, k0', k1, k2, k3, k4⟩ := g2.1 A hA
          exact ⟨k0, k0', i2.1.trans k1, k2.trans i2.2.1, i2.2.2.1.trans k3, k4.trans i2.2.2.2⟩
      · intro x y hxy
        rcases hor x y hxy with hm | hm
        · obtain ⟨A, hA, hA1, hA2⟩ := g1.2 x y hm
          refine ⟨A, List.mem_append_left _ hA, hA1, fun B hB hBm => ?_⟩
          rcases List.mem_append.1 hB with hB | hB
          · exact hA2 B hB hBm
          · exact absurd (sub2 B hB x y hBm) (hdis x y hm)
        · obtain ⟨A, hA, hA1, hA2⟩ := g2.2 x y hm
          refine ⟨A, List.mem_append_right _ hA, hA1, fun B hB hBm => ?_⟩
          rcases List.mem_append.1 hB with hB | hB
          · exact absurd hm (hdis x y (sub1 B hB x y hBm))
          · exact hA2 B hB hBm
    rcases h2 with ⟨m1, m2, m3, m4, m5⟩ | ⟨m1, m2, m3, m4, m5⟩
    · refine glue (L1 := ⟨x0, m, y0, y1⟩) (L2 := ⟨m, x1, y0, y1⟩) (path ++ [false]) (path ++ [true])
        (ihl hl _ ⟨m1, m3⟩ m4) (ihr hr _ ⟨m2, m3⟩ m5)
        ⟨le_rfl, m2.le, le_rfl, le_rfl⟩ ⟨m1.le, le_rfl, le_rfl, le_rfl⟩ ?_ ?_
      · intro x y hm
        rcases lt_or_ge x m with hx | hx
        · exact Or.inl ⟨hm.1, hx, hm.2.2⟩
        · exact Or.inr ⟨hx, hm.2⟩
      · intro x y h1' h2'
        exact absurd h1'.2.1 (not_lt.2 h2'.1)
    · refine glue (L1 := ⟨x0, x1, y0, m⟩) (L2 := ⟨x0, x1, m, y1⟩) (path ++ [false]) (path ++ [true])
        (ihl hl _ ⟨m3, m1⟩ m4) (ihr hr _ ⟨m3, m2⟩ m5)
        ⟨le_rfl, le_rfl, le_rfl, m2.le⟩ ⟨le_rfl, le_rfl, m1.le, le_rfl⟩ ?_ ?_
      · intro x y hm
        rcases lt_or_ge y m with hx | hx
        · exact Or.inl ⟨hm.1, hm.2.1, hm.2.2.1, hx⟩
        · exact Or.inr ⟨hm.1, hm.2.1, hx, hm.2.2.2⟩
      · intro x y h1' h2'
        exact absurd h1'.2.2.2 (not_lt.2 h2'.2.2.1)

theorem icc_mono {a b c d : ℝ} (h1 : c ≤ a) (h2 : b ≤ d) : Itv.icc a b ≤ Itv.icc c d := by
  rw [Itv.le_iff]
  intro x hx
  rw [Itv.mem_icc] at hx ⊢
  exact ⟨h1.trans hx.1, hx.2.trans h2⟩

theorem cut_wf {P : Paving ℝ} (h : P.Cut) : P.WF 2 := by
  induction P with
  | leaf b v =>
    obtain ⟨x0, x1, y0, y1, h1, h2, rfl⟩ := h
    rfl
  | node b v l r ihl ihr =>
    obtain ⟨hl, hr, x0, x1, y0, y1, m, rfl, h2⟩ := h
    refine ⟨rfl, ?_, ?_, ihl hl, ihr hr⟩
    · rcases h2 with ⟨m1, m2, m3, m4, m5⟩ | ⟨m1, m2, m3, m4, m5⟩
      · rw [m4]; exact .cons (icc_mono le_rfl m2.le) (.cons le_rfl .nil)
      · rw [m4]; exact .cons le_rfl (.cons (icc_mono le_rfl m2.le) .nil)
    · rcases h2 with ⟨m1, m2, m3, m4, m5⟩ | ⟨m1, m2, m3, m4, m5⟩
      · rw [m5]; exact .cons (icc_mono m1.le le_rfl) (.cons le_rfl .nil)
      · rw [m5]; exact .cons le_rfl (.cons (icc_mono m1.le le_rfl) .nil)

/-- distinct leaves have disjoint interiors -/
theorem disj_of_ne {L : List (Leaf ℝ)} {R : RR}
    (h1 : ∀ A ∈ L, (rect A).Pos ∧ R.x0 ≤ (rect A).x0 ∧ (rect A).x1 ≤ R.x1 ∧ R.y0 ≤ (rect A).y0 ∧ (rect A).y1 ≤ R.y1)
    (h2 : ∀ x y, R.HMem x y → One L fun A => (rect A).HMem x y) {A B : Leaf ℝ} (hA : A ∈ L) (hB : B ∈ L) (hne : A ≠ B) :
    (rect A).Disj (rect B) := by
  by_contra hc
  unfold RR.Disj at hc
  push Not at hc
  obtain ⟨pA, a1, a2, a3, a4⟩ := h1 A hA
  obtain ⟨pB, b1, b2, b3, b4⟩ := h1 B hB
  obtain ⟨c1, c2, c3, c4⟩ := hc
  have mA : (rect A).HMem (max (rect A).x0 (rect B).x0) (max (rect A).y0 (rect B).y0) :=
    ⟨le_max_left _ _, max_lt pA.1 c1, le_max_left _ _, max_lt pA.2 c3⟩
  have mB : (rect B).HMem (max (rect A).x0 (rect B).x0) (max (rect A).y0 (rect B).y0) :=
    ⟨le_max_right _ _, max_lt c2 pB.1, le_max_right _ _, max_lt c4 pB.2⟩
  obtain ⟨D, _, _, hD⟩ := h2 _ _ (⟨a1.trans mA.1, mA.2.1.trans_le a2, a3.trans mA.2.2.1, mA.2.2.2.trans_le a4⟩ : R.HMem _ _)
  exact hne ((hD A hA mA).trans (hD B hB mB).symm)

/-- a subset as given by `get_connected_subsets`, with the `OUT` leaves around it -/
structure Subset.Good (S : Subset ℝ) : Prop where
  cut : S.root.Cut
  nodup : S.items.Nodup
  sub : ∀ u ∈ S.items, u ∈ S.root.leaves 0 []
  notOut : ∀ u ∈ S.items, u.value.meets .OUT = false
  touch : ∀ u ∈ S.items, ∀ c ∈ S.root.leaves 0 [], (∃ z, InBox z u.box ∧ InBox z c.box) → c ∈ S.items ∨ c.value.meets .OUT = true
  unknown : ∀ u ∈ S.items, ∀ c ∈ S.root.leaves 0 [], c.value.meets .OUT = true → (∃ z, InBox z u.box ∧ InBox z c.box) →
    u.value.meets .UNKNOWN = true

/-- the `OUT` leaves -/
noncomputable def Subset.outs (S : Subset ℝ) : List (Leaf ℝ) := (S.root.leaves 0 []).filter fun c => c.value.meets .OUT

theorem inBox_box {R : RR} {x y : ℝ} : InBox [x, y] R.box ↔ R.Mem (x, y) := by
  unfold InBox RR.box RR.Mem
  simp only [List.forall₂_cons, Itv.mem_icc, List.forall₂_nil_right_iff, and_true]
  tauto

theorem inBox_two {R : RR} {v : List ℝ} (h : InBox v R.box) : ∃ x y, v = [x, y] ∧ R.Mem (x, y) := by
  have hl : v.length = 2 := List.Forall₂.length_eq h
  obtain ⟨x, y, rfl⟩ : ∃ x y, v = [x, y] := by
    match v, hl with
    | [x, y], _ => exact ⟨x, y, rfl⟩
  exact ⟨x, y, rfl, inBox_box.1 h⟩

theorem touch_iff {U C : RR} : (∃ z, InBox z U.box ∧ InBox z C.box) ↔ ∃ z, U.Mem z ∧ C.Mem z := by
  constructor
  · rintro ⟨v, h1, h2⟩
    obtain ⟨x, y, rfl, h⟩ := inBox_two h1
    exact ⟨(x, y), h, inBox_box.1 h2⟩
  · rintro ⟨⟨x, y⟩, h1, h2⟩
    exact ⟨[x, y], inBox_box.2 h1, inBox_box.2 h2⟩

theorem mem_foldl_hull {l : List (Leaf ℝ)} {b : Box ℝ} (hb : b.length = 2) (hl : ∀ u ∈ l, u.box.length = 2) {v : List ℝ}
    (h : InBox v b ∨ ∃ u ∈ l, InBox v u.box) :
    InBox v (l.foldl (fun b u => Box.hull b u.box) b) ∧ (l.foldl (fun b u => Box.hull b u.box) b).length = 2 := by
  induction l generalizing b with
  | nil =>
    rcases h with h | ⟨u, hu, _⟩
    · exact ⟨h, hb⟩
    · cases hu
  | cons a l ih =>
    have hla : b.length = a.box.length := by rw [hb, hl a (by simp)]
    refine ih (b := Box.hull b a.box) (by rw [Box.length_hull hla, hb]) (fun u hu => hl u (by simp [hu])) ?_
    rcases h with h | ⟨u, hu, h⟩
    · exact Or.inl (h.hull_left hla)
    · rcases List.mem_cons.1 hu with rfl | hu
      · exact Or.inl (h.hull_right hla)
      · exact Or.inr ⟨u, hu, h⟩

theorem interior_mem {I : Itv ℝ} {a b x : ℝ} (hab : a ≤ b) (h : interiorSub I (Itv.icc a b) = true) (hx : x ∈ I) : a < x ∧ x < b := by
  rw [Itv.icc_eq_mk hab] at h
  cases I with
  | empty => cases hx
  | mk l u hlu =>
    simp only [interiorSub, Bool.and_eq_true] at h
    obtain ⟨h1, h2⟩ := h
    obtain ⟨k1, k2⟩ := hx
    cases l with
    | none => simp at h1
    | some l =>
      cases u with
      | none => simp at h2
      | some u =>
        simp only [decide_eq_true_eq] at h1 h2
        exact ⟨lt_of_lt_of_le h1 k1, lt_of_le_of_lt k2 h2⟩

theorem Subset.inside {S : Subset ℝ} {R : RR} (hR : R.Pos) (e : S.root.box = R.box) (hl : ∀ u ∈ S.items, (rect u).Pos ∧ u.box = (rect u).box)
    (h : S.strictlyIncluded = true) {u : Leaf ℝ} (hu : u ∈ S.items) :
    R.x0 < (rect u).x0 ∧ (rect u).x1 < R.x1 ∧ R.y0 < (rect u).y0 ∧ (rect u).y1 < R.y1 := by
  have key : ∀ z, (rect u).Mem z → (R.x0 < z.1 ∧ z.1 < R.x1) ∧ (R.y0 < z.2 ∧ z.2 < R.y1) := by
    rintro ⟨x, y⟩ hz
    have hm := mem_foldl_hull (l := S.items) (b := Box.empty 2) rfl (fun u hu => by rw [(hl u hu).2]; rfl) (v := [x, y])
      (Or.inr ⟨u, hu, by rw [(hl u hu).2]; exact inBox_box.2 hz⟩)
    unfold Subset.strictlyIncluded at h
    rw [Bool.and_eq_true] at h
    have h := h.1
    rw [e] at h
    change InBox [x, y] S.box ∧ S.box.length = 2 at hm
    generalize S.box = B at hm h
    match B, hm.2 with
    | [I, J], _ =>
      simp only [RR.box, List.zipWith_cons_cons, List.zipWith_nil_left, List.all_cons, List.all_nil, id, Bool.and_true, Bool.and_eq_true] at h
      have hm := hm.1
      unfold InBox at hm
      simp only [List.forall₂_cons] at hm
      exact ⟨interior_mem hR.1.le h.1 hm.1, interior_mem hR.2.le h.2 hm.2.1⟩
  have p := (hl u hu).1
  have k1 := key ((rect u).x0, (rect u).y0) ⟨le_rfl, p.1.le, le_rfl, p.2.le⟩
  have k2 := key ((rect u).x1, (rect u).y1) ⟨p.1.le, le_rfl, p.2.le, le_rfl⟩
  exact ⟨k1.1.1, k2.1.2, k1.2.1, k2.2.2⟩

/-- what is known of the leaves -/
structure Subset.Facts (S : Subset ℝ) : Prop where
  leaf : ∀ A ∈ S.root.leaves 0 [], (rect A).Pos ∧ A.box = (rect A).box
  disj : ∀ A ∈ S.root.leaves 0 [], ∀ B ∈ S.root.leaves 0 [], A ≠ B → (rect A).Disj (rect B)

theorem Subset.Good.facts {S : Subset ℝ} (h : S.Good) : S.Facts := by
  obtain ⟨R, hR, e⟩ := cut_box h.cut
  obtain ⟨k1, k2⟩ := cut_leaves h.cut 0 [] hR e
  exact ⟨fun A hA => ⟨(k1 A hA).1, (k1 A hA).2.1⟩, fun A hA B hB hne =>
    disj_of_ne (fun A hA => ⟨(k1 A hA).1, (k1 A hA).2.2⟩) k2 hA hB hne⟩

theorem Subset.Good.setup {S : Subset ℝ} (h : S.Good) (hs : S.strictlyIncluded = true) :
    ∃ root, Setup rect root (S.root.leaves 0 []) S.items S.outs := by
  obtain ⟨R, hR, e⟩ := cut_box h.cut
  obtain ⟨k1, k2⟩ := cut_leaves h.cut 0 [] hR e
  refine ⟨R, fun A hA => (k1 A hA).1, fun A hA => ⟨(k1 A hA).2.2.1, (k1 A hA).2.2.2.2.1⟩, k2, ?_, ?_, ?_, ?_⟩
  · intro A hA
    rcases List.mem_append.1 hA with hA | hA
    · exact h.sub A hA
    · exact List.mem_of_mem_filter hA
  · refine List.Nodup.append h.nodup (leaves_nodup.filter _) ?_
    intro A hA hA'
    have := (List.mem_filter.1 hA').2
    rw [h.notOut A hA] at this
    cases this
  · intro U hU
    exact Subset.inside hR e (fun u hu => ⟨(k1 u (h.sub u hu)).1, (k1 u (h.sub u hu)).2.1⟩) hs hU
  · intro U hU A hA hz
    have eU := (k1 U (h.sub U hU)).2.1
    have eA := (k1 A hA).2.1
    rw [← touch_iff, ← eU, ← eA] at hz
    rcases h.touch U hU A hA hz with h' | h'
    · exact List.mem_append_left _ h'
    · exact List.mem_append_right _ (List.mem_filter.2 ⟨hA, h'⟩)

/-! ### The pairs of boxes around the boundary -/

theorem sum_filter {α : Type*} (l : List α) (p : α → Bool) (f : α → Int) :
    ((l.filter p).map f).sum = (l.map fun x => if p x = true then f x else 0).sum := by
  induction l with
  | nil => rfl
  | cons a l ih =>
    rw [List.filter_cons]
    by_cases h : p a = true
    · rw [if_pos h, List.map_cons, List.sum_cons, List.map_cons, List.sum_cons, if_pos h, ih]
    · rw [if_neg h, List.map_cons, List.sum_cons, if_neg h, zero_add, ih]

theorem sum_flatMap {α β : Type*} (l : List α) (f : α → List β) (φ : β → Int) :
    ((l.flatMap f).map φ).sum = (l.map fun a => ((f a).map φ).sum).sum := by
  induction l with
  | nil => rfl
  | cons a l ih => rw [List.flatMap_cons, List.map_append, List.sum_append, List.map_cons, List.sum_cons, ih]

/-- the neighbours that share a side -/
theorem Subset.Good.sides {S : Subset ℝ} (h : S.Good) {u : Leaf ℝ} (hu : u ∈ S.items) :
    ((S.root.neighbours .OUT [] 0 u).filter fun c => !(Box.inter u.box c.box).all Itv.isDegenerated) =
      S.outs.filter fun c => !(Box.inter u.box c.box).all Itv.isDegenerated := by
  have hf := h.facts
  have hul := h.sub u hu
  unfold neighbours Subset.outs
  rw [intersecting_eq (n := 2) (by norm_num) (cut_wf h.cut) (by rw [(hf.leaf u hul).2]; rfl)]
  rw [List.filter_filter, List.filter_filter, List.filter_filter, List.filter_filter]
  refine List.filter_congr fun c hc => ?_
  have eU := (hf.leaf u hul).2
  have eC := (hf.leaf c hc).2
  have pU := (hf.leaf u hul).1
  have pC := (hf.leaf c hc).1
  have hw := wide_iff pU.1.le pC.1.le
  have hm := isEmpty_inter pU.1.le pC.1.le
  rw [← eU, ← eC] at hw hm
  rw [Bool.eq_iff_iff]
  simp only [Bool.and_eq_true, Bool.not_eq_true', bne_iff_ne, ne_eq, List.contains_nil, Bool.not_false]
  constructor
  · intro hh
    tauto
  · rintro ⟨h1, h2⟩
    have hne : ¬ c = u := by
      rintro rfl
      exact absurd h2 (by rw [h.notOut c hu]; decide)
    have := hm.2 (hw.1 h1).1
    tauto

theorem Subset.Good.pairs_eq {S : Subset ℝ} (h : S.Good) :
    S.pairs = S.items.flatMap fun u => (S.outs.filter fun c => !(Box.inter u.box c.box).all Itv.isDegenerated).map fun c => (u, c) := by
  unfold Subset.pairs
  refine List.flatMap_congr fun u hu => ?_
  rw [h.sides hu]
  by_cases hv : u.value.meets .UNKNOWN = true
  · rw [if_pos hv]
  · rw [if_neg hv]
    rw [List.filter_eq_nil_iff.2, List.map_nil]
    intro c hc hc'
    have hf := h.facts
    obtain ⟨hcl, hco⟩ := List.mem_filter.1 hc
    have hul := h.sub u hu
    have hw := wide_iff (hf.leaf u hul).1.1.le (hf.leaf c hcl).1.1.le
    rw [← (hf.leaf u hul).2, ← (hf.leaf c hcl).2] at hw
    have := meet_iff.1 (hw.1 (by simpa using hc')).1
    rw [← touch_iff, ← (hf.leaf u hul).2, ← (hf.leaf c hcl).2] at this
    exact hv (h.unknown u hu c hcl hco this)

/-- the facts on a pair -/
structure PairFacts (S : Subset ℝ) (p : Leaf ℝ × Leaf ℝ) : Prop where
  item : p.1 ∈ S.items
  out : p.2 ∈ S.outs
  posU : (rect p.1).Pos
  posC : (rect p.2).Pos
  boxU : p.1.box = (rect p.1).box
  boxC : p.2.box = (rect p.2).box
  wide : (rect p.1).Wide (rect p.2)
  disj : (rect p.1).Disj (rect p.2)

theorem Subset.Good.mem_pairs {S : Subset ℝ} (h : S.Good) {p : Leaf ℝ × Leaf ℝ} (hp : p ∈ S.pairs) : PairFacts S p := by
  rw [h.pairs_eq, List.mem_flatMap] at hp
  obtain ⟨u, hu, hp⟩ := hp
  obtain ⟨c, hc, rfl⟩ := List.mem_map.1 hp
  obtain ⟨hc, hw⟩ := List.mem_filter.1 hc
  have hf := h.facts
  obtain ⟨hcl, hco⟩ := List.mem_filter.1 hc
  have hul := h.sub u hu
  have hw' := wide_iff (hf.leaf u hul).1.1.le (hf.leaf c hcl).1.1.le
  rw [← (hf.leaf u hul).2, ← (hf.leaf c hcl).2] at hw'
  refine ⟨hu, hc, (hf.leaf u hul).1, (hf.leaf c hcl).1, (hf.leaf u hul).2, (hf.leaf c hcl).2, hw'.1 (by simpa using hw), hf.disj u hul c hcl ?_⟩
  intro e
  have e' : u = c := e
  rw [← e', h.notOut u hu] at hco
  cases hco

theorem Subset.Good.pairs_nodup {S : Subset ℝ} (h : S.Good) : S.pairs.Nodup := by
  rw [h.pairs_eq, List.nodup_flatMap]
  refine ⟨fun u _ => ((leaves_nodup.filter _).filter _).map fun a b e => (Prod.mk.inj e).2, ?_⟩
  refine h.nodup.imp fun {a b} hne => ?_
  intro p hp hp'
  obtain ⟨c, _, rfl⟩ := List.mem_map.1 hp
  obtain ⟨c', _, e⟩ := List.mem_map.1 hp'
  exact hne (Prod.mk.inj e).1.symm

/-- a sum on the boundary is a sum on the pairs -/
theorem Subset.Good.sum_pairs {S : Subset ℝ} (h : S.Good) (τ : Leaf ℝ → Int) (g : ℝ × ℝ → Int) :
    (S.pairs.map fun p => τ p.2 * dEdge g (rect p.1) (rect p.2)).sum =
      (S.items.map fun U => (S.outs.map fun C => τ C * dEdge g (rect U) (rect C)).sum).sum := by
  rw [h.pairs_eq, sum_flatMap]
  refine congrArg List.sum (List.map_congr_left fun u hu => ?_)
  rw [List.map_map, sum_filter]
  refine congrArg List.sum (List.map_congr_left fun c hc => ?_)
  have hf := h.facts
  obtain ⟨hcl, hco⟩ := List.mem_filter.1 hc
  have hul := h.sub u hu
  have hw := wide_iff (hf.leaf u hul).1.1.le (hf.leaf c hcl).1.1.le
  rw [← (hf.leaf u hul).2, ← (hf.leaf c hcl).2] at hw
  by_cases hh : (!(Box.inter u.box c.box).all Itv.isDegenerated) = true
  · rw [if_pos hh]; rfl
  · rw [if_neg hh, dEdge_not_wide (hf.leaf u hul).1 (hf.leaf c hcl).1, mul_zero]
    intro hc'
    exact hh (by rw [hw.2 hc']; rfl)

end Deg
end Codac
