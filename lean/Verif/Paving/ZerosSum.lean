import Verif.Paving.Winding
import Mathlib.Topology.Order.IntermediateValue
import Mathlib.Algebra.BigOperators.Ring.Finset
import Mathlib.Data.Finset.Prod

/-!
# The sum on the boundary of a region that contains isolated zeros

The zeros are surrounded by small rectangles; the sum on the boundary of the region (`Verif/Paving/Winding.lean`) is the sum of what is found around these
rectangles.
-/

namespace Codac.Deg

open Finset

/-- positive: 1, otherwise 0 -/
noncomputable def gOf (v : ℝ) : Int := if 0 < v then 1 else 0

/-- on a segment, one of the two components keeps its sign -/
def Four (u v : ℝ → ℝ) (a b : ℝ) : Prop :=
  (∀ t, a ≤ t → t ≤ b → 0 < u t) ∨ (∀ t, a ≤ t → t ≤ b → u t < 0) ∨ (∀ t, a ≤ t → t ≤ b → 0 < v t) ∨ (∀ t, a ≤ t → t ≤ b → v t < 0)

open Classical in
/-- the change of sign of the second component on a segment on which the first one is positive -/
noncomputable def change (u v : ℝ → ℝ) (a b : ℝ) : Int := if ∀ t, a ≤ t → t ≤ b → 0 < u t then gOf (v b) - gOf (v a) else 0

/-- the sign of the second component where the first one is positive, `s` elsewhere -/
noncomputable def gPos (u v : ℝ → ℝ) (s : Int) (t : ℝ) : Int := if 0 < u t then gOf (v t) else s

theorem gOf_pos {x : ℝ} (h : 0 < x) : gOf x = 1 := if_pos h
theorem gOf_neg {x : ℝ} (h : x < 0) : gOf x = 0 := if_neg (not_lt.2 h.le)

theorem change_eq {u v : ℝ → ℝ} {a b : ℝ} (hab : a ≤ b) (hu : ContinuousOn u (Set.Icc a b)) (h4 : Four u v a b) {s : Int}
    (hs : ∀ t, a ≤ t → t ≤ b → u t = 0 → gOf (v t) = s) : change u v a b = gPos u v s b - gPos u v s a := by
  classical
  unfold change
  by_cases hp : ∀ t, a ≤ t → t ≤ b → 0 < u t
  · rw [if_pos hp, gPos, gPos, if_pos (hp b hab le_rfl), if_pos (hp a le_rfl hab)]
  · rw [if_neg hp]
    -- the second component keeps its sign
    have key : ∀ w : Int, (∀ t, a ≤ t → t ≤ b → gOf (v t) = w) → 0 = gPos u v s b - gPos u v s a := by
      intro w hw
      unfold gPos
      rw [hw b hab le_rfl, hw a le_rfl hab]
      by_cases h1 : 0 < u b
      · by_cases h2 : 0 < u a
        · rw [if_pos h1, if_pos h2]; ring
        · obtain ⟨t, ht, e⟩ := intermediate_value_Icc hab hu ⟨not_lt.1 h2, h1.le⟩
          rw [← hw t ht.1 ht.2, hs t ht.1 ht.2 e, if_pos h1, if_neg h2]; ring
      · by_cases h2 : 0 < u a
        · obtain ⟨t, ht, e⟩ := intermediate_value_Icc' hab hu ⟨not_lt.1 h1, h2.le⟩
          rw [← hw t ht.1 ht.2, hs t ht.1 ht.2 e, if_neg h1, if_pos h2]; ring
        · rw [if_neg h1, if_neg h2]; ring
    rcases h4 with h | h | h | h
    · exact absurd h hp
    · rw [gPos, gPos, if_neg (not_lt.2 (h b hab le_rfl).le), if_neg (not_lt.2 (h a le_rfl hab).le)]; ring
    · exact key 1 fun t h1 h2 => gOf_pos (h t h1 h2)
    · exact key 0 fun t h1 h2 => gOf_neg (h t h1 h2)

/-- the changes on a side cut by a grid -/
theorem changes_eq {u v : ℝ → ℝ} {ts : Nat → ℝ} (hm : StrictMono ts) {lo hi : Nat} (hle : lo ≤ hi) (hu : ContinuousOn u (Set.Icc (ts lo) (ts hi)))
    (h4 : ∀ i, lo ≤ i → i < hi → Four u v (ts i) (ts (i + 1))) {s : Int}
    (hs : ∀ t, ts lo ≤ t → t ≤ ts hi → u t = 0 → gOf (v t) = s) :
    ∑ i ∈ Ico lo hi, change u v (ts i) (ts (i + 1)) = gPos u v s (ts hi) - gPos u v s (ts lo) := by
  rw [← sum_tele (fun i => gPos u v s (ts i)) hle]
  refine sum_congr rfl fun i hi' => ?_
  rw [mem_Ico] at hi'
  have h1 : ts lo ≤ ts i := hm.monotone hi'.1
  have h2 : ts (i + 1) ≤ ts hi := hm.monotone hi'.2
  exact change_eq (hm (Nat.lt_succ_self i)).le (hu.mono (Set.Icc_subset_Icc h1 h2)) (h4 i hi'.1 hi'.2)
    fun t k1 k2 e => hs t (h1.trans k1) (k2.trans h2) e

variable (f₁ f₂ : ℝ × ℝ → ℝ)

/-- the first component has opposite signs below and above the rectangle `Q`, the second one has, where the first one vanishes on the left and right sides,
signs that give `σ` -/
def LocV (Q : RR) (σ : Int) : Prop :=
  ∃ sl sr : Int, (∀ y, Q.y0 ≤ y → y ≤ Q.y1 → f₁ (Q.x0, y) = 0 → gOf (f₂ (Q.x0, y)) = sl) ∧
    (∀ y, Q.y0 ≤ y → y ≤ Q.y1 → f₁ (Q.x1, y) = 0 → gOf (f₂ (Q.x1, y)) = sr) ∧
    (((∀ x, Q.x0 ≤ x → x ≤ Q.x1 → 0 < f₁ (x, Q.y1) ∧ f₁ (x, Q.y0) < 0) ∧ σ = sl - sr) ∨
      ((∀ x, Q.x0 ≤ x → x ≤ Q.x1 → f₁ (x, Q.y1) < 0 ∧ 0 < f₁ (x, Q.y0)) ∧ σ = sr - sl))

/-- the same, with the left and right sides -/
def LocH (Q : RR) (σ : Int) : Prop :=
  ∃ sb st : Int, (∀ x, Q.x0 ≤ x → x ≤ Q.x1 → f₁ (x, Q.y0) = 0 → gOf (f₂ (x, Q.y0)) = sb) ∧
    (∀ x, Q.x0 ≤ x → x ≤ Q.x1 → f₁ (x, Q.y1) = 0 → gOf (f₂ (x, Q.y1)) = st) ∧
    (((∀ y, Q.y0 ≤ y → y ≤ Q.y1 → 0 < f₁ (Q.x1, y) ∧ f₁ (Q.x0, y) < 0) ∧ σ = st - sb) ∨
      ((∀ y, Q.y0 ≤ y → y ≤ Q.y1 → f₁ (Q.x1, y) < 0 ∧ 0 < f₁ (Q.x0, y)) ∧ σ = sb - st))

/-- around the rectangle `Q` the first component changes its sign twice, on two opposite sides, and the second component has there signs that give `σ` -/
def Loc (Q : RR) (σ : Int) : Prop := LocV f₁ f₂ Q σ ∨ LocH f₁ f₂ Q σ

/-- the changes on the horizontal edges of a grid -/
noncomputable def hEdge (xs ys : Nat → ℝ) (i j : Nat) : Int := change (fun x => f₁ (x, ys j)) (fun x => f₂ (x, ys j)) (xs i) (xs (i + 1))

/-- the changes on the vertical edges of a grid -/
noncomputable def vEdge (xs ys : Nat → ℝ) (i j : Nat) : Int := change (fun y => f₁ (xs i, y)) (fun y => f₂ (xs i, y)) (ys j) (ys (j + 1))

variable {f₁ f₂}

/-- the sum around a rectangle of the grid -/
theorem rect_index {xs ys : Nat → ℝ} (mx : StrictMono xs) (my : StrictMono ys) {q : NR} (hab : q.a ≤ q.b) (hcd : q.c ≤ q.d) {Q : RR}
    (ea : xs q.a = Q.x0) (eb : xs q.b = Q.x1) (ec : ys q.c = Q.y0) (ed : ys q.d = Q.y1) (hc : ContinuousOn f₁ {z | Q.Mem z})
    (hH : ∀ j, j = q.c ∨ j = q.d → ∀ i, q.a ≤ i → i < q.b → Four (fun x => f₁ (x, ys j)) (fun x => f₂ (x, ys j)) (xs i) (xs (i + 1)))
    (hV : ∀ i, i = q.a ∨ i = q.b → ∀ j, q.c ≤ j → j < q.d → Four (fun y => f₁ (xs i, y)) (fun y => f₂ (xs i, y)) (ys j) (ys (j + 1)))
    {σ : Int} (hl : Loc f₁ f₂ Q σ) : rectSum (hEdge f₁ f₂ xs ys) (vEdge f₁ f₂ xs ys) q = σ := by
  have hxx : Q.x0 ≤ Q.x1 := by rw [← ea, ← eb]; exact mx.monotone hab
  have hyy : Q.y0 ≤ Q.y1 := by rw [← ec, ← ed]; exact my.monotone hcd
  have cH : ∀ y, Q.y0 ≤ y → y ≤ Q.y1 → ContinuousOn (fun x => f₁ (x, y)) (Set.Icc Q.x0 Q.x1) := by
    intro y h1 h2
    refine hc.comp (Continuous.continuousOn (by fun_prop)) ?_
    intro x hx
    exact ⟨hx.1, hx.2, h1, h2⟩
  have cV : ∀ x, Q.x0 ≤ x → x ≤ Q.x1 → ContinuousOn (fun y => f₁ (x, y)) (Set.Icc Q.y0 Q.y1) := by
    intro x h1 h2
    refine hc.comp (Continuous.continuousOn (by fun_prop)) ?_
    intro y hy
    exact ⟨h1, h2, hy.1, hy.2⟩
  have sB : ∀ s : Int, (∀ x, Q.x0 ≤ x → x ≤ Q.x1 → f₁ (x, Q.y0) = 0 → gOf (f₂ (x, Q.y0)) = s) → hSum (hEdge f₁ f₂ xs ys) q.c q.a q.b =
      gPos (fun x => f₁ (x, Q.y0)) (fun x => f₂ (x, Q.y0)) s Q.x1 - gPos (fun x => f₁ (x, Q.y0)) (fun x => f₂ (x, Q.y0)) s Q.x0 := by
    intro s hs
    have := changes_eq (u := fun x => f₁ (x, ys q.c)) (v := fun x => f₂ (x, ys q.c)) mx hab
      (by rw [ea, eb, ec]; exact cH _ le_rfl hyy) (hH _ (Or.inl rfl)) (s := s) (by rw [ea, eb, ec]; exact hs)
    rw [ea, eb] at this
    unfold hSum hEdge
    rw [this, ec]
  have sT : ∀ s : Int, (∀ x, Q.x0 ≤ x → x ≤ Q.x1 → f₁ (x, Q.y1) = 0 → gOf (f₂ (x, Q.y1)) = s) → hSum (hEdge f₁ f₂ xs ys) q.d q.a q.b =
      gPos (fun x => f₁ (x, Q.y1)) (fun x => f₂ (x, Q.y1)) s Q.x1 - gPos (fun x => f₁ (x, Q.y1)) (fun x => f₂ (x, Q.y1)) s Q.x0 := by
    intro s hs
    have := changes_eq (u := fun x => f₁ (x, ys q.d)) (v := fun x => f₂ (x, ys q.d)) mx hab
      (by rw [ea, eb, ed]; exact cH _ hyy le_rfl) (hH _ (Or.inr rfl)) (s := s) (by rw [ea, eb, ed]; exact hs)
    rw [ea, eb] at this
    unfold hSum hEdge
    rw [this, ed]
  have sL : ∀ s : Int, (∀ y, Q.y0 ≤ y → y ≤ Q.y1 → f₁ (Q.x0, y) = 0 → gOf (f₂ (Q.x0, y)) = s) → vSum (vEdge f₁ f₂ xs ys) q.a q.c q.d =
      gPos (fun y => f₁ (Q.x0, y)) (fun y => f₂ (Q.x0, y)) s Q.y1 - gPos (fun y => f₁ (Q.x0, y)) (fun y => f₂ (Q.x0, y)) s Q.y0 := by
    intro s hs
    have := changes_eq (u := fun y => f₁ (xs q.a, y)) (v := fun y => f₂ (xs q.a, y)) my hcd
      (by rw [ea, ec, ed]; exact cV _ le_rfl hxx) (hV _ (Or.inl rfl)) (s := s) (by rw [ea, ec, ed]; exact hs)
    rw [ec, ed] at this
    unfold vSum vEdge
    rw [this, ea]
  have sR : ∀ s : Int, (∀ y, Q.y0 ≤ y → y ≤ Q.y1 → f₁ (Q.x1, y) = 0 → gOf (f₂ (Q.x1, y)) = s) → vSum (vEdge f₁ f₂ xs ys) q.b q.c q.d =
      gPos (fun y => f₁ (Q.x1, y)) (fun y => f₂ (Q.x1, y)) s Q.y1 - gPos (fun y => f₁ (Q.x1, y)) (fun y => f₂ (Q.x1, y)) s Q.y0 := by
    intro s hs
    have := changes_eq (u := fun y => f₁ (xs q.b, y)) (v := fun y => f₂ (xs q.b, y)) my hcd
      (by rw [eb, ec, ed]; exact cV _ hxx le_rfl) (hV _ (Or.inr rfl)) (s := s) (by rw [eb, ec, ed]; exact hs)
    rw [ec, ed] at this
    unfold vSum vEdge
    rw [this, eb]
  rw [← around_sum _ _ hab hcd]
  rcases hl with ⟨sl, sr, hsl, hsr, ⟨hTB, rfl⟩ | ⟨hTB, rfl⟩⟩ | ⟨sb, st, hsb, hst, ⟨hLR, rfl⟩ | ⟨hLR, rfl⟩⟩
  · rw [sB 0 (fun x h1 h2 e => absurd e (hTB x h1 h2).2.ne), sT 0 (fun x h1 h2 e => absurd e (hTB x h1 h2).1.ne'), sL sl hsl, sR sr hsr]
    unfold gPos
    have c1 := hTB _ le_rfl hxx
    have c2 := hTB _ hxx le_rfl
    simp only [c1.1, c2.1, c1.2.not_gt, c2.2.not_gt, if_true, if_false]
    ring
  · rw [sB 0 (fun x h1 h2 e => absurd e (hTB x h1 h2).2.ne'), sT 0 (fun x h1 h2 e => absurd e (hTB x h1 h2).1.ne), sL sl hsl, sR sr hsr]
    unfold gPos
    have c1 := hTB _ le_rfl hxx
    have c2 := hTB _ hxx le_rfl
    simp only [c1.2, c2.2, c1.1.not_gt, c2.1.not_gt, if_true, if_false]
    ring
  · rw [sL 0 (fun y h1 h2 e => absurd e (hLR y h1 h2).2.ne), sR 0 (fun y h1 h2 e => absurd e (hLR y h1 h2).1.ne'), sB sb hsb, sT st hst]
    unfold gPos
    have c1 := hLR _ le_rfl hyy
    have c2 := hLR _ hyy le_rfl
    simp only [c1.1, c2.1, c1.2.not_gt, c2.2.not_gt, if_true, if_false]
    ring
  · rw [sL 0 (fun y h1 h2 e => absurd e (hLR y h1 h2).2.ne'), sR 0 (fun y h1 h2 e => absurd e (hLR y h1 h2).1.ne), sB sb hsb, sT st hst]
    unfold gPos
    have c1 := hLR _ le_rfl hyy
    have c2 := hLR _ hyy le_rfl
    simp only [c1.2, c2.2, c1.1.not_gt, c2.1.not_gt, if_true, if_false]
    ring

section
variable {α : Type*} {R : α → RR} {root : RR} {L S O : List α} {xs ys : Nat → ℝ} {r : α → NR}

theorem rectSum_eq (H V : Nat → Nat → Int) (q : NR) {N : Nat} (hb : q.b ≤ N) (hd : q.d ≤ N) [∀ p : Nat × Nat, Decidable (q.HasCell p.1 p.2)] :
    rectSum H V q = ∑ p ∈ range N ×ˢ range N, cellSum H V p.1 p.2 * if q.HasCell p.1 p.2 then 1 else 0 := by
  unfold rectSum
  rw [← sum_product']
  have e : Ico q.a q.b ×ˢ Ico q.c q.d = (range N ×ˢ range N).filter fun p => q.HasCell p.1 p.2 := by
    ext ⟨i, j⟩
    rw [mem_product, mem_Ico, mem_Ico, Finset.mem_filter, mem_product, Finset.mem_range, Finset.mem_range]
    unfold NR.HasCell
    dsimp only
    omega
  rw [e, sum_filter]
  refine sum_congr rfl fun p _ => ?_
  split_ifs <;> ring

/-- the sum on the boundary, in terms of the changes on the edges of a grid -/
theorem boundary_changes (hs : Setup R root L S O) (hg : Grid R root L xs ys r) (τ : α → Int)
    (hτ : ∀ C ∈ O, (τ C = 1 ∧ ∀ z ∈ region R S, (R C).Mem z → 0 < f₁ z) ∨ (τ C = 0 ∧ ((∀ z ∈ region R S, (R C).Mem z → f₁ z < 0) ∨
      (∀ z ∈ region R S, (R C).Mem z → 0 < f₂ z) ∨ ∀ z ∈ region R S, (R C).Mem z → f₂ z < 0))) :
    (S.map fun U => (O.map fun C => τ C * dEdge (sgn2 f₂) (R U) (R C)).sum).sum =
      - (S.map fun U => rectSum (hEdge f₁ f₂ xs ys) (vEdge f₁ f₂ xs ys) (r U)).sum := by
  classical
  rw [← boundary_cells hs hg]
  have mono : ∀ {i j : Nat}, i ≤ j → xs i ≤ xs j := fun h => hg.mx.monotone h
  have mono' : ∀ {i j : Nat}, i ≤ j → ys i ≤ ys j := fun h => hg.my.monotone h
  refine congrArg List.sum (List.map_congr_left fun U hU => congrArg List.sum (List.map_congr_left fun C hC => ?_))
  have hUL := hs.sub U (List.mem_append_left _ hU)
  have hCL := hs.sub C (List.mem_append_right _ hC)
  symm
  have conv : ∀ {A : RR} {x a b y : ℝ}, A.Mem (a, y) → A.Mem (b, y) → a ≤ x → x ≤ b → A.Mem (x, y) := fun h1 h2 h3 h4 =>
    ⟨h1.1.trans h3, h4.trans h2.2.1, h1.2.2⟩
  have conv' : ∀ {A : RR} {x a b y : ℝ}, A.Mem (x, a) → A.Mem (x, b) → a ≤ y → y ≤ b → A.Mem (x, y) := fun h1 h2 h3 h4 =>
    ⟨h1.1, h1.2.1, h1.2.2.1.trans h3, h4.trans h2.2.2.2⟩
  refine edge_eq hg hUL hCL (hs.pos U hUL) (hs.pos C hCL) (sgn2 f₂) (τ C) ?_ ?_
  · intro i j m1 m2 m3 m4
    unfold hEdge change
    rcases hτ C hC with ⟨e, hp⟩ | ⟨e, hp⟩
    · rw [e, one_mul, if_pos]
      · rfl
      · intro x hx1 hx2
        exact hp _ ⟨U, hU, conv m1 m2 hx1 hx2⟩ (conv m3 m4 hx1 hx2)
    · rw [e, zero_mul]
      by_cases hall : ∀ x, xs i ≤ x → x ≤ xs (i + 1) → 0 < f₁ (x, ys j)
      · rw [if_pos hall]
        rcases hp with hp | hp | hp
        · exact absurd (hp _ ⟨U, hU, m1⟩ m3) (not_lt.2 (hall (xs i) le_rfl (mono (by omega))).le)
        · rw [gOf_pos (hp _ ⟨U, hU, m1⟩ m3), gOf_pos (hp _ ⟨U, hU, m2⟩ m4)]; rfl
        · rw [gOf_neg (hp _ ⟨U, hU, m1⟩ m3), gOf_neg (hp _ ⟨U, hU, m2⟩ m4)]; rfl
      · rw [if_neg hall]
  · intro i j m1 m2 m3 m4
    unfold vEdge change
    rcases hτ C hC with ⟨e, hp⟩ | ⟨e, hp⟩
    · rw [e, one_mul, if_pos]
      · rfl
      · intro x hx1 hx2
        exact hp _ ⟨U, hU, conv' m1 m2 hx1 hx2⟩ (conv' m3 m4 hx1 hx2)
    · rw [e, zero_mul]
      by_cases hall : ∀ y, ys j ≤ y → y ≤ ys (j + 1) → 0 < f₁ (xs i, y)
      · rw [if_pos hall]
        rcases hp with hp | hp | hp
        · exact absurd (hp _ ⟨U, hU, m1⟩ m3) (not_lt.2 (hall (ys j) le_rfl (mono' (by omega))).le)
        · rw [gOf_pos (hp _ ⟨U, hU, m1⟩ m3), gOf_pos (hp _ ⟨U, hU, m2⟩ m4)]; rfl
        · rw [gOf_neg (hp _ ⟨U, hU, m1⟩ m3), gOf_neg (hp _ ⟨U, hU, m2⟩ m4)]; rfl
      · rw [if_neg hall]

/-- a cell on which one of the components keeps its sign -/
theorem cell_zero {i j : Nat} (mx : xs i ≤ xs (i + 1)) (my : ys j ≤ ys (j + 1))
    (h : (∀ x y, xs i ≤ x → x ≤ xs (i + 1) → ys j ≤ y → y ≤ ys (j + 1) → 0 < f₁ (x, y)) ∨
      (∀ x y, xs i ≤ x → x ≤ xs (i + 1) → ys j ≤ y → y ≤ ys (j + 1) → f₁ (x, y) < 0) ∨
      (∀ x y, xs i ≤ x → x ≤ xs (i + 1) → ys j ≤ y → y ≤ ys (j + 1) → 0 < f₂ (x, y)) ∨
      ∀ x y, xs i ≤ x → x ≤ xs (i + 1) → ys j ≤ y → y ≤ ys (j + 1) → f₂ (x, y) < 0) :
    cellSum (hEdge f₁ f₂ xs ys) (vEdge f₁ f₂ xs ys) i j = 0 := by
  classical
  unfold cellSum hEdge vEdge change
  rcases h with hP | hP | hP | hP
  · rw [if_pos fun x k1 k2 => hP x _ k1 k2 le_rfl my, if_pos fun y k1 k2 => hP _ y mx le_rfl k1 k2,
      if_pos fun x k1 k2 => hP x _ k1 k2 my le_rfl, if_pos fun y k1 k2 => hP _ y le_rfl mx k1 k2]
    ring
  · rw [if_neg fun hc => absurd (hc (xs i) le_rfl mx) (not_lt.2 (hP _ _ le_rfl mx le_rfl my).le),
      if_neg fun hc => absurd (hc (ys j) le_rfl my) (not_lt.2 (hP _ _ mx le_rfl le_rfl my).le),
      if_neg fun hc => absurd (hc (xs i) le_rfl mx) (not_lt.2 (hP _ _ le_rfl mx my le_rfl).le),
      if_neg fun hc => absurd (hc (ys j) le_rfl my) (not_lt.2 (hP _ _ le_rfl mx le_rfl my).le)]
    rfl
  · rw [gOf_pos (hP _ _ le_rfl mx le_rfl my), gOf_pos (hP _ _ mx le_rfl le_rfl my), gOf_pos (hP _ _ le_rfl mx my le_rfl),
      gOf_pos (hP _ _ mx le_rfl my le_rfl)]
    simp
  · rw [gOf_neg (hP _ _ le_rfl mx le_rfl my), gOf_neg (hP _ _ mx le_rfl le_rfl my), gOf_neg (hP _ _ le_rfl mx my le_rfl),
      gOf_neg (hP _ _ mx le_rfl my le_rfl)]
    simp

/-- the open rectangle -/
def RR.Inner (Q : RR) (z : ℝ × ℝ) : Prop := Q.x0 < z.1 ∧ z.1 < Q.x1 ∧ Q.y0 < z.2 ∧ z.2 < Q.y1

theorem inner_open (Q : RR) : IsOpen {z | Q.Inner z} := by
  have e : {z | Q.Inner z} = Set.Ioo Q.x0 Q.x1 ×ˢ Set.Ioo Q.y0 Q.y1 := by
    ext z
    simp only [RR.Inner, Set.mem_ofPred_eq, Set.mem_prod, Set.mem_Ioo, and_assoc]
  rw [e]
  exact isOpen_Ioo.prod isOpen_Ioo

/-- small rectangles around the zeros -/
structure Around (f₁ f₂ : ℝ × ℝ → ℝ) (M : Set (ℝ × ℝ)) (Z : Finset (ℝ × ℝ)) (Q : ℝ × ℝ → RR) (σ : ℝ × ℝ → Int) : Prop where
  zeros : ∀ z ∈ M, f₁ z = 0 → f₂ z = 0 → z ∈ Z
  inner : ∀ ζ ∈ Z, (Q ζ).Inner ζ
  sub : ∀ ζ ∈ Z, ∀ z, (Q ζ).Mem z → z ∈ M
  disj : ∀ ζ ∈ Z, ∀ ξ ∈ Z, ζ ≠ ξ → ∀ z, (Q ζ).Mem z → ¬ (Q ξ).Mem z
  loc : ∀ ζ ∈ Z, Loc f₁ f₂ (Q ζ) (σ ζ)

/-- The sum on the boundary of a region is the sum of what is found around its zeros. -/
theorem zeros_sum (hs : Setup R root L S O) (h₁ : ContinuousOn f₁ (region R S)) (h₂ : ContinuousOn f₂ (region R S)) (τ : α → Int)
    (hτ : ∀ C ∈ O, (τ C = 1 ∧ ∀ z ∈ region R S, (R C).Mem z → 0 < f₁ z) ∨ (τ C = 0 ∧ ((∀ z ∈ region R S, (R C).Mem z → f₁ z < 0) ∨
      (∀ z ∈ region R S, (R C).Mem z → 0 < f₂ z) ∨ ∀ z ∈ region R S, (R C).Mem z → f₂ z < 0)))
    {Z : Finset (ℝ × ℝ)} {Q : ℝ × ℝ → RR} {σ : ℝ × ℝ → Int} (ha : Around f₁ f₂ (region R S) Z Q σ) :
    (S.map fun U => (O.map fun C => τ C * dEdge (sgn2 f₂) (R U) (R C)).sum).sum = - ∑ ζ ∈ Z, σ ζ := by
  classical
  let M : Set (ℝ × ℝ) := region R S \ ⋃ ζ ∈ Z, {z | (Q ζ).Inner z}
  have hM : IsCompact M := region_compact.diff (isOpen_biUnion fun ζ _ => inner_open (Q ζ))
  have hMs : M ⊆ region R S := Set.sdiff_subset
  have memM : ∀ z, z ∈ region R S → (∀ ζ ∈ Z, ¬ (Q ζ).Inner z) → z ∈ M := by
    intro z h1 h2
    refine ⟨h1, ?_⟩
    simp only [Set.mem_iUnion, not_exists]
    intro ζ hζ hz
    exact h2 ζ hζ hz
  obtain ⟨δ, hδ, hstep⟩ := exists_step_of_compact hM (h₁.mono hMs) (h₂.mono hMs) (by
    rintro z hz ⟨e1, e2⟩
    refine hz.2 ?_
    have hzZ := ha.zeros z hz.1 e1 e2
    exact Set.mem_biUnion hzZ (ha.inner z hzZ))
  have inReg : ∀ ζ ∈ Z, root.x0 ≤ (Q ζ).x0 ∧ (Q ζ).x0 < (Q ζ).x1 ∧ root.y0 ≤ (Q ζ).y0 ∧ (Q ζ).y0 < (Q ζ).y1 := by
    intro ζ hζ
    obtain ⟨i1, i2, i3, i4⟩ := ha.inner ζ hζ
    obtain ⟨U, hU, m⟩ := ha.sub ζ hζ ((Q ζ).x0, (Q ζ).y0) ⟨le_rfl, (i1.trans i2).le, le_rfl, (i3.trans i4).le⟩
    have hi := hs.inside U hU
    exact ⟨hi.1.le.trans m.1, i1.trans i2, hi.2.2.1.le.trans m.2.2.1, i3.trans i4⟩
  obtain ⟨xs, ys, r, hg, gx, gy, lx, ly⟩ := exists_setup_lines hs hδ (Z.toList.flatMap fun ζ => [(Q ζ).x0, (Q ζ).x1])
    (Z.toList.flatMap fun ζ => [(Q ζ).y0, (Q ζ).y1])
    (by
      intro x hx
      simp only [List.mem_flatMap, mem_toList, List.mem_cons, List.not_mem_nil, or_false] at hx
      obtain ⟨ζ, hζ, rfl | rfl⟩ := hx
      · exact (inReg ζ hζ).1
      · exact (inReg ζ hζ).1.trans (inReg ζ hζ).2.1.le)
    (by
      intro x hx
      simp only [List.mem_flatMap, mem_toList, List.mem_cons, List.not_mem_nil, or_false] at hx
      obtain ⟨ζ, hζ, rfl | rfl⟩ := hx
      · exact (inReg ζ hζ).2.2.1
      · exact (inReg ζ hζ).2.2.1.trans (inReg ζ hζ).2.2.2.le)
  have ex : ∀ ζ, ∃ n : NR, ζ ∈ Z → xs n.a = (Q ζ).x0 ∧ xs n.b = (Q ζ).x1 ∧ ys n.c = (Q ζ).y0 ∧ ys n.d = (Q ζ).y1 := by
    intro ζ
    by_cases hA : ζ ∈ Z
    · obtain ⟨a, ea⟩ := lx (Q ζ).x0 (List.mem_flatMap.2 ⟨ζ, mem_toList.2 hA, by simp⟩)
      obtain ⟨b, eb⟩ := lx (Q ζ).x1 (List.mem_flatMap.2 ⟨ζ, mem_toList.2 hA, by simp⟩)
      obtain ⟨c, ec⟩ := ly (Q ζ).y0 (List.mem_flatMap.2 ⟨ζ, mem_toList.2 hA, by simp⟩)
      obtain ⟨d, ed⟩ := ly (Q ζ).y1 (List.mem_flatMap.2 ⟨ζ, mem_toList.2 hA, by simp⟩)
      exact ⟨⟨a, b, c, d⟩, fun _ => ⟨ea, eb, ec, ed⟩⟩
    · exact ⟨⟨0, 0, 0, 0⟩, fun h => absurd h hA⟩
  choose q hq using ex
  rw [boundary_changes hs hg τ hτ]
  refine congrArg Neg.neg ?_
  have mono : ∀ {i j : Nat}, i ≤ j → xs i ≤ xs j := fun h => hg.mx.monotone h
  have mono' : ∀ {i j : Nat}, i ≤ j → ys i ≤ ys j := fun h => hg.my.monotone h
  have qlt : ∀ ζ ∈ Z, (q ζ).a < (q ζ).b ∧ (q ζ).c < (q ζ).d := by
    intro ζ hζ
    obtain ⟨e1, e2, e3, e4⟩ := hq ζ hζ
    rw [← hg.mx.lt_iff_lt, ← hg.my.lt_iff_lt, e1, e2, e3, e4]
    exact ⟨(inReg ζ hζ).2.1, (inReg ζ hζ).2.2.2⟩
  -- the points near a point of `M`
  have near : ∀ i j x y, xs i ≤ x → x ≤ xs (i + 1) → ys j ≤ y → y ≤ ys (j + 1) → dist (x, y) (xs i, ys j) < δ := by
    intro i j x y k1 k2 k3 k4
    rw [Prod.dist_eq, max_lt_iff, Real.dist_eq, Real.dist_eq, abs_lt, abs_lt]
    have := gx i
    have := gy j
    exact ⟨⟨by simp only; linarith, by simp only; linarith⟩, ⟨by simp only; linarith, by simp only; linarith⟩⟩
  have bnd : ∀ ζ ∈ Z, ∀ z, (Q ζ).Mem z → ¬ (Q ζ).Inner z → z ∈ M := by
    intro ζ hζ z h1 h2
    refine memM z (ha.sub ζ hζ z h1) fun ξ hξ h3 => ?_
    by_cases e : ζ = ξ
    · subst e; exact h2 h3
    · exact ha.disj ζ hζ ξ hξ e z h1 ⟨h3.1.le, h3.2.1.le, h3.2.2.1.le, h3.2.2.2.le⟩
  have idx : ∀ ζ ∈ Z, rectSum (hEdge f₁ f₂ xs ys) (vEdge f₁ f₂ xs ys) (q ζ) = σ ζ := by
    intro ζ hζ
    obtain ⟨e1, e2, e3, e4⟩ := hq ζ hζ
    have l := qlt ζ hζ
    refine rect_index hg.mx hg.my l.1.le l.2.le e1 e2 e3 e4 (h₁.mono fun z hz => ha.sub ζ hζ z hz) ?_ ?_ (ha.loc ζ hζ)
    · intro j hj i hi1 hi2
      have hy : ys j = (Q ζ).y0 ∨ ys j = (Q ζ).y1 := by
        rcases hj with rfl | rfl
        · exact Or.inl e3
        · exact Or.inr e4
      have pM : ∀ x, xs i ≤ x → x ≤ xs (i + 1) → (x, ys j) ∈ M := by
        intro x k1 k2
        refine bnd ζ hζ _ ⟨?_, ?_, ?_, ?_⟩ ?_
        · rw [← e1]; exact (mono hi1).trans k1
        · rw [← e2]; exact k2.trans (mono hi2)
        · rcases hy with h | h
          · exact h.ge
          · rw [show ((x, ys j) : ℝ × ℝ).2 = (Q ζ).y1 from h]; exact (inReg ζ hζ).2.2.2.le
        · rcases hy with h | h
          · rw [show ((x, ys j) : ℝ × ℝ).2 = (Q ζ).y0 from h]; exact (inReg ζ hζ).2.2.2.le
          · exact h.le
        · rintro ⟨-, -, b1, b2⟩
          rcases hy with h | h
          · exact b1.ne' h
          · exact b2.ne h
      have hx : xs i ≤ xs (i + 1) := mono (by omega)
      rcases hstep _ (pM _ le_rfl hx) with h | h | h | h
      · exact Or.inl fun t k1 k2 => h _ (pM t k1 k2) (near i j t _ k1 k2 le_rfl (mono' (by omega)))
      · exact Or.inr (Or.inl fun t k1 k2 => h _ (pM t k1 k2) (near i j t _ k1 k2 le_rfl (mono' (by omega))))
      · exact Or.inr (Or.inr (Or.inl fun t k1 k2 => h _ (pM t k1 k2) (near i j t _ k1 k2 le_rfl (mono' (by omega)))))
      · exact Or.inr (Or.inr (Or.inr fun t k1 k2 => h _ (pM t k1 k2) (near i j t _ k1 k2 le_rfl (mono' (by omega)))))
    · intro i hi j hj1 hj2
      have hx : xs i = (Q ζ).x0 ∨ xs i = (Q ζ).x1 := by
        rcases hi with rfl | rfl
        · exact Or.inl e1
        · exact Or.inr e2
      have pM : ∀ y, ys j ≤ y → y ≤ ys (j + 1) → (xs i, y) ∈ M := by
        intro y k1 k2
        refine bnd ζ hζ _ ⟨?_, ?_, ?_, ?_⟩ ?_
        · rcases hx with h | h
          · exact h.ge
          · rw [show ((xs i, y) : ℝ × ℝ).1 = (Q ζ).x1 from h]; exact (inReg ζ hζ).2.1.le
        · rcases hx with h | h
          · rw [show ((xs i, y) : ℝ × ℝ).1 = (Q ζ).x0 from h]; exact (inReg ζ hζ).2.1.le
          · exact h.le
        · rw [← e3]; exact (mono' hj1).trans k1
        · rw [← e4]; exact k2.trans (mono' hj2)
        · rintro ⟨b1, b2, -, -⟩
          rcases hx with h | h
          · exact b1.ne' h
          · exact b2.ne h
      have hy : ys j ≤ ys (j + 1) := mono' (by omega)
      rcases hstep _ (pM _ le_rfl hy) with h | h | h | h
      · exact Or.inl fun t k1 k2 => h _ (pM t k1 k2) (near i j _ t le_rfl (mono (by omega)) k1 k2)
      · exact Or.inr (Or.inl fun t k1 k2 => h _ (pM t k1 k2) (near i j _ t le_rfl (mono (by omega)) k1 k2))
      · exact Or.inr (Or.inr (Or.inl fun t k1 k2 => h _ (pM t k1 k2) (near i j _ t le_rfl (mono (by omega)) k1 k2)))
      · exact Or.inr (Or.inr (Or.inr fun t k1 k2 => h _ (pM t k1 k2) (near i j _ t le_rfl (mono (by omega)) k1 k2)))
  rw [← sum_congr rfl idx]
  -- a bound for the indices
  obtain ⟨N, hNS, hNZ⟩ : ∃ N, (∀ U ∈ S, (r U).b ≤ N ∧ (r U).d ≤ N) ∧ ∀ ζ ∈ Z, (q ζ).b ≤ N ∧ (q ζ).d ≤ N := by
    have b1 : ∀ l : List α, ∃ N, ∀ U ∈ l, (r U).b ≤ N ∧ (r U).d ≤ N := by
      intro l
      induction l with
      | nil => exact ⟨0, by simp⟩
      | cons A l ih =>
        obtain ⟨N, hN⟩ := ih
        refine ⟨N + (r A).b + (r A).d, fun U hU => ?_⟩
        rcases List.mem_cons.1 hU with rfl | hU
        · omega
        · have := hN U hU; omega
    have b2 : ∀ l : List (ℝ × ℝ), ∃ N, ∀ U ∈ l, (q U).b ≤ N ∧ (q U).d ≤ N := by
      intro l
      induction l with
      | nil => exact ⟨0, by simp⟩
      | cons A l ih =>
        obtain ⟨N, hN⟩ := ih
        refine ⟨N + (q A).b + (q A).d, fun U hU => ?_⟩
        rcases List.mem_cons.1 hU with rfl | hU
        · omega
        · have := hN U hU; omega
    obtain ⟨N1, h1⟩ := b1 S
    obtain ⟨N2, h2⟩ := b2 Z.toList
    refine ⟨N1 + N2, fun U hU => ?_, fun ζ hζ => ?_⟩
    · have := h1 U hU; omega
    · have := h2 ζ (mem_toList.2 hζ); omega
  have eS : (S.map fun U => rectSum (hEdge f₁ f₂ xs ys) (vEdge f₁ f₂ xs ys) (r U)).sum =
      ∑ p ∈ range N ×ˢ range N, cellSum (hEdge f₁ f₂ xs ys) (vEdge f₁ f₂ xs ys) p.1 p.2 *
        (S.map fun U => if (r U).HasCell p.1 p.2 then (1 : Int) else 0).sum := by
    have : ∀ l : List α, (∀ U ∈ l, (r U).b ≤ N ∧ (r U).d ≤ N) → (l.map fun U => rectSum (hEdge f₁ f₂ xs ys) (vEdge f₁ f₂ xs ys) (r U)).sum =
        ∑ p ∈ range N ×ˢ range N, cellSum (hEdge f₁ f₂ xs ys) (vEdge f₁ f₂ xs ys) p.1 p.2 *
          (l.map fun U => if (r U).HasCell p.1 p.2 then (1 : Int) else 0).sum := by
      intro l hl
      induction l with
      | nil => simp
      | cons A l ih =>
        have hA := hl A (by simp)
        simp only [List.map_cons, List.sum_cons, mul_add, sum_add_distrib]
        rw [ih fun U hU => hl U (by simp [hU]), rectSum_eq _ _ (r A) hA.1 hA.2]
    exact this S hNS
  have eZ : ∑ ζ ∈ Z, rectSum (hEdge f₁ f₂ xs ys) (vEdge f₁ f₂ xs ys) (q ζ) =
      ∑ p ∈ range N ×ˢ range N, cellSum (hEdge f₁ f₂ xs ys) (vEdge f₁ f₂ xs ys) p.1 p.2 *
        ∑ ζ ∈ Z, if (q ζ).HasCell p.1 p.2 then (1 : Int) else 0 := by
    simp only [mul_sum]
    rw [sum_comm]
    exact sum_congr rfl fun ζ hζ => rectSum_eq _ _ (q ζ) (hNZ ζ hζ).1 (hNZ ζ hζ).2
  rw [eS, eZ]
  refine sum_congr rfl ?_
  rintro ⟨i, j⟩ -
  dsimp only
  have mx : xs i < xs (i + 1) := hg.mx (Nat.lt_succ_self i)
  have my : ys j < ys (j + 1) := hg.my (Nat.lt_succ_self j)
  have cellU : ∀ U ∈ S, (r U).HasCell i j → ∀ x y, xs i ≤ x → x ≤ xs (i + 1) → ys j ≤ y → y ≤ ys (j + 1) → (x, y) ∈ region R S := by
    intro U hU hc x y k1 k2 k3 k4
    obtain ⟨c1, c2, c3, c4⟩ := hc
    have hUL := hs.sub U (List.mem_append_left _ hU)
    refine ⟨U, hU, ?_⟩
    unfold RR.Mem
    rw [← hg.ra U hUL, ← hg.rb U hUL, ← hg.rc U hUL, ← hg.rd U hUL]
    exact ⟨(mono c1).trans k1, k2.trans (mono (by omega)), (mono' c3).trans k3, k4.trans (mono' (by omega))⟩
  by_cases hz : ∃ ζ ∈ Z, (q ζ).HasCell i j
  · obtain ⟨ζ, hζ, hc⟩ := hz
    obtain ⟨e1, e2, e3, e4⟩ := hq ζ hζ
    have n2 : (∑ ξ ∈ Z, if (q ξ).HasCell i j then (1 : Int) else 0) = 1 := by
      rw [sum_eq_single ζ]
      · rw [if_pos hc]
      · intro ξ hξ hne
        rw [if_neg]
        intro hc'
        obtain ⟨d1, d2, d3, d4⟩ := hq ξ hξ
        refine ha.disj ζ hζ ξ hξ (Ne.symm hne) (xs i, ys j) ?_ ?_
        · unfold RR.Mem
          rw [← e1, ← e2, ← e3, ← e4]
          exact ⟨mono hc.1, mono hc.2.1.le, mono' hc.2.2.1, mono' hc.2.2.2.le⟩
        · unfold RR.Mem
          rw [← d1, ← d2, ← d3, ← d4]
          exact ⟨mono hc'.1, mono hc'.2.1.le, mono' hc'.2.2.1, mono' hc'.2.2.2.le⟩
      · intro h; exact absurd hζ h
    have n1 : (S.map fun U => if (r U).HasCell i j then (1 : Int) else 0).sum = 1 := by
      -- the middle of the cell
      obtain ⟨U, hU, m⟩ := ha.sub ζ hζ ((xs i + xs (i + 1)) / 2, (ys j + ys (j + 1)) / 2) (by
        unfold RR.Mem
        rw [← e1, ← e2, ← e3, ← e4]
        have a1 := mono hc.1
        have a2 := mono (show i + 1 ≤ (q ζ).b from hc.2.1)
        have a3 := mono' hc.2.2.1
        have a4 := mono' (show j + 1 ≤ (q ζ).d from hc.2.2.2)
        refine ⟨?_, ?_, ?_, ?_⟩ <;> dsimp only <;> linarith)
      have hUL := hs.sub U (List.mem_append_left _ hU)
      have hUc : (r U).HasCell i j := by
        obtain ⟨m1, m2, m3, m4⟩ := m
        rw [← hg.ra U hUL] at m1
        rw [← hg.rb U hUL] at m2
        rw [← hg.rc U hUL] at m3
        rw [← hg.rd U hUL] at m4
        dsimp only at m1 m2 m3 m4
        refine ⟨?_, ?_, ?_, ?_⟩
        · exact Nat.lt_succ_iff.1 (hg.mx.lt_iff_lt.1 (by linarith))
        · exact hg.mx.lt_iff_lt.1 (by linarith)
        · exact Nat.lt_succ_iff.1 (hg.my.lt_iff_lt.1 (by linarith))
        · exact hg.my.lt_iff_lt.1 (by linarith)
      obtain ⟨A, hA, hAc, hu⟩ := (grid_facts hs hg).2.2 U hU i j (Or.inl ⟨hUc.1, hUc.2.1, by have := hUc.2.2.1; omega, by have := hUc.2.2.2; omega⟩)
      have eU : U = A := hu U (List.mem_append_left _ hU) hUc
      exact One.sum (List.Nodup.of_append_left hs.nodup) ⟨U, hU, hUc, fun B hB hBc => (hu B (List.mem_append_left _ hB) hBc).trans eU.symm⟩
    rw [n1, n2]
  · have n2 : (∑ ξ ∈ Z, if (q ξ).HasCell i j then (1 : Int) else 0) = 0 :=
      sum_eq_zero fun ξ hξ => if_neg fun hc => hz ⟨ξ, hξ, hc⟩
    rw [n2, mul_zero]
    by_cases hU : ∃ U ∈ S, (r U).HasCell i j
    · obtain ⟨U, hU, hc⟩ := hU
      have pM : ∀ x y, xs i ≤ x → x ≤ xs (i + 1) → ys j ≤ y → y ≤ ys (j + 1) → (x, y) ∈ M := by
        intro x y k1 k2 k3 k4
        refine memM _ (cellU U hU hc x y k1 k2 k3 k4) fun ζ hζ hin => hz ⟨ζ, hζ, ?_⟩
        obtain ⟨e1, e2, e3, e4⟩ := hq ζ hζ
        obtain ⟨i1, i2, i3, i4⟩ := hin
        dsimp only at i1 i2 i3 i4
        refine ⟨?_, ?_, ?_, ?_⟩
        · exact Nat.lt_succ_iff.1 (hg.mx.lt_iff_lt.1 (by rw [e1]; linarith))
        · exact hg.mx.lt_iff_lt.1 (by rw [e2]; linarith)
        · exact Nat.lt_succ_iff.1 (hg.my.lt_iff_lt.1 (by rw [e3]; linarith))
        · exact hg.my.lt_iff_lt.1 (by rw [e4]; linarith)
      rw [cell_zero mx.le my.le, zero_mul]
      rcases hstep _ (pM _ _ le_rfl mx.le le_rfl my.le) with h | h | h | h
      · exact Or.inl fun x y k1 k2 k3 k4 => h _ (pM x y k1 k2 k3 k4) (near i j x y k1 k2 k3 k4)
      · exact Or.inr (Or.inl fun x y k1 k2 k3 k4 => h _ (pM x y k1 k2 k3 k4) (near i j x y k1 k2 k3 k4))
      · exact Or.inr (Or.inr (Or.inl fun x y k1 k2 k3 k4 => h _ (pM x y k1 k2 k3 k4) (near i j x y k1 k2 k3 k4)))
      · exact Or.inr (Or.inr (Or.inr fun x y k1 k2 k3 k4 => h _ (pM x y k1 k2 k3 k4) (near i j x y k1 k2 k3 k4)))
    · have n1 : (S.map fun U => if (r U).HasCell i j then (1 : Int) else 0).sum = 0 := by
        refine List.sum_eq_zero fun x hx => ?_
        obtain ⟨U, hU', rfl⟩ := List.mem_map.1 hx
        exact if_neg fun hc => hU ⟨U, hU', hc⟩
      rw [n1, mul_zero]

end

end Codac.Deg
