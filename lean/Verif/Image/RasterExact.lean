import Verif.Image.RasterProofs

/-!
# The contractor of an image with exact arithmetic
-/

set_option linter.unusedSectionVars false

namespace Codac.Raster
variable {K : Type*} [Field K] [LinearOrder K] [IsStrictOrderedRing K] [FloorRing K]

section
omit [FloorRing K]

/-- division of the bounds by a number -/
def divR (X : Itv K) (r : K) : Itv K :=
  match X with
  | .empty => .empty
  | .mk lo hi _ =>
    if 0 < r then .ofBounds (lo.map (· / r)) (hi.map (· / r)) else .ofBounds (hi.map (· / r)) (lo.map (· / r))

theorem mem_divR {X : Itv K} {r y : K} (hr : r ≠ 0) : y ∈ divR X r ↔ y * r ∈ X := by
  cases X with
  | empty => exact ⟨fun h => absurd h (Itv.not_mem_empty _), fun h => absurd h (Itv.not_mem_empty _)⟩
  | mk lo hi p =>
    simp only [divR]
    split
    · rename_i h
      rw [Itv.mem_ofBounds, Itv.mem_mk]
      cases lo <;> cases hi <;> simp [div_le_iff₀ h, le_div_iff₀ h]
    · rename_i h
      have h' : r < 0 := lt_of_le_of_ne (not_lt.mp h) hr
      rw [Itv.mem_ofBounds, Itv.mem_mk]
      cases lo <;> cases hi <;> simp [div_le_iff_of_neg h', le_div_iff_of_neg h', and_comm]

/-- exact arithmetic -/
def exactOps (K : Type*) [Field K] [LinearOrder K] [IsStrictOrderedRing K] : Ops K where
  A := IArith.exact K
  div := divR
  div_mem := fun {X x r} hx hr => by rw [mem_divR hr, div_mul_cancel₀ _ hr]; exact hx

theorem mem_sub_icc {X : Itv K} {z a b : K} (hab : a ≤ b) (h : z ∈ Itv.sub X (.icc a b)) : ∃ x s, x ∈ X ∧ (a ≤ s ∧ s ≤ b) ∧ z = x - s := by
  rw [Itv.icc_eq_mk hab] at h
  cases X with
  | empty => exact absurd h (Itv.not_mem_empty _)
  | mk lo hi p =>
    have hn : Itv.neg (Itv.mk (some a) (some b) hab) = Itv.mk (some (-b)) (some (-a)) (by simpa using hab) := by
      simp only [Itv.neg, Itv.negB]; exact Itv.icc_eq_mk (by simpa using hab)
    rw [Itv.sub, hn] at h
    rcases lo with _ | l <;> rcases hi with _ | u
    · exact ⟨z + a, a, ⟨trivial, trivial⟩, ⟨le_refl _, hab⟩, by ring⟩
    · have h2 : z ≤ u + -a := h.2
      exact ⟨z + a, a, ⟨trivial, by simp only [leHi_some]; linarith⟩, ⟨le_refl _, hab⟩, by ring⟩
    · have h1 : l + -b ≤ z := h.1
      refine ⟨max l (z + a), max l (z + a) - z, ⟨le_max_left _ _, trivial⟩, ⟨?_, ?_⟩, by ring⟩
      · linarith [le_max_right l (z + a)]
      · have : max l (z + a) ≤ z + b := max_le (by linarith) (by linarith)
        linarith
    · have h : z ∈ Itv.icc (l + -b) (u + -a) := h
      rw [Itv.mem_icc] at h
      obtain ⟨h1, h2⟩ := h
      have hlu : l ≤ u := p
      refine ⟨max l (z + a), max l (z + a) - z, ⟨le_max_left _ _, max_le hlu (by linarith)⟩, ⟨?_, ?_⟩, by ring⟩
      · linarith [le_max_right l (z + a)]
      · have : max l (z + a) ≤ z + b := max_le (by linarith) (by linarith)
        linarith

end

/-- with exact arithmetic, an index of the difference is the one of a cell which meets the interval -/
theorem mem_cell {a : Axis K} (hl : a.leaf ≠ 0) {X : Itv K} {k : Nat}
    (h : (k : K) ∈ (exactOps K).A.sub ((exactOps K).div ((exactOps K).A.sub X (.point a.o)) a.leaf) (.icc 0 1)) :
    ∃ x, x ∈ X ∧ InCell a k x := by
  obtain ⟨g, s, hg, hs, e⟩ := mem_sub_icc (zero_le_one) h
  have hg' := (mem_divR hl).mp hg
  have ep : (Itv.point a.o : Itv K) = .icc a.o a.o := (Itv.icc_eq_mk (le_refl _)).symm
  rw [ep] at hg'
  obtain ⟨x, o', hx, ho, e2⟩ := mem_sub_icc (le_refl _) hg'
  have ho' : o' = a.o := le_antisymm ho.2 ho.1
  refine ⟨x, hx, s, hs.1, hs.2, ?_⟩
  have : g = k + s := by rw [e]; ring
  rw [← this, e2, ho']; ring

theorem inCell_iff {a : Axis K} (hl : a.leaf ≠ 0) {k : Nat} {x : K} : InCell a k x ↔ (k : K) ≤ (x - a.o) / a.leaf ∧ (x - a.o) / a.leaf ≤ k + 1 := by
  constructor
  · rintro ⟨s, s0, s1, rfl⟩
    rw [add_sub_cancel_left, mul_div_assoc, div_self hl, mul_one]
    exact ⟨by linarith, by linarith⟩
  · rintro ⟨h1, h2⟩
    refine ⟨(x - a.o) / a.leaf - k, by linarith, by linarith, ?_⟩
    rw [add_sub_cancel, div_mul_cancel₀ _ hl]; ring

/-- with exact arithmetic the box of a range of cells has nothing else -/
theorem toWorld_exact {a : Axis K} (hl : a.leaf ≠ 0) {c : Nat × Nat} (hc : c.1 ≤ c.2) {x : K} (h : x ∈ toWorld (exactOps K) a c) :
    (c.1 : K) ≤ (x - a.o) / a.leaf ∧ (x - a.o) / a.leaf ≤ c.2 + 1 := by
  have hc' : (c.1 : K) ≤ (c.2 : K) := by exact_mod_cast hc
  have hm : Itv.mul (.icc (c.1 : K) (c.2 : K)) (.point a.leaf) =
      .icc (min (min ((c.1 : K) * a.leaf) ((c.1 : K) * a.leaf)) (min ((c.2 : K) * a.leaf) ((c.2 : K) * a.leaf)))
        (max (max ((c.1 : K) * a.leaf) ((c.1 : K) * a.leaf)) (max ((c.2 : K) * a.leaf) ((c.2 : K) * a.leaf))) := by
    rw [Itv.icc_eq_mk hc']; rfl
  rw [min_self, min_self, max_self, max_self] at hm
  have h' : x ∈ Itv.add (Itv.add (Itv.mul (.icc (c.1 : K) (c.2 : K)) (.point a.leaf)) (.point a.o)) (eps a) := h
  rw [hm, Itv.icc_eq_mk (le_trans (min_le_left _ _) (le_max_left _ _))] at h'
  have hmm : min ((c.1 : K) * a.leaf) ((c.2 : K) * a.leaf) ≤ max ((c.1 : K) * a.leaf) ((c.2 : K) * a.leaf) := le_trans (min_le_left _ _) (le_max_left _ _)
  have e1 : Itv.add (Itv.mk (some (min ((c.1 : K) * a.leaf) ((c.2 : K) * a.leaf))) (some (max ((c.1 : K) * a.leaf) ((c.2 : K) * a.leaf))) hmm) (.point a.o) =
      Itv.mk (some (min ((c.1 : K) * a.leaf) ((c.2 : K) * a.leaf) + a.o)) (some (max ((c.1 : K) * a.leaf) ((c.2 : K) * a.leaf) + a.o))
        (by simp) := Itv.icc_eq_mk (by linarith)
  rw [e1] at h'
  have h'' : x ∈ Itv.icc (min ((c.1 : K) * a.leaf) ((c.2 : K) * a.leaf) + a.o + min 0 a.leaf) (max ((c.1 : K) * a.leaf) ((c.2 : K) * a.leaf) + a.o + max 0 a.leaf) := h'
  obtain ⟨h1, h2⟩ := Itv.mem_icc.mp h''
  rcases lt_or_gt_of_ne hl with hn | hn
  · rw [min_eq_right (by nlinarith), min_eq_right hn.le] at h1
    rw [max_eq_left (by nlinarith), max_eq_left hn.le] at h2
    exact ⟨(le_div_iff_of_neg hn).mpr (by linarith), (div_le_iff_of_neg hn).mpr (by linarith)⟩
  · rw [min_eq_left (by nlinarith), min_eq_left hn.le] at h1
    rw [max_eq_right (by nlinarith), max_eq_right hn.le] at h2
    exact ⟨(le_div_iff₀ hn).mpr (by linarith), (div_le_iff₀ hn).mpr (by linarith)⟩

/-- a point of the image is in one of its cells -/
theorem image_cell {a : Axis K} (hl : a.leaf ≠ 0) (hn : 0 < a.n) {x : K} (h : x ∈ toWorld (exactOps K) a (0, a.n - 1)) : ∃ k, k < a.n ∧ InCell a k x := by
  obtain ⟨h1, h2⟩ := toWorld_exact hl (Nat.zero_le _) h
  simp only [Nat.cast_zero] at h1 h2
  have e : ((a.n - 1 : Nat) : K) + 1 = a.n := by rw [← Nat.cast_succ]; congr 1; omega
  rw [e] at h2
  generalize hg : (x - a.o) / a.leaf = g at *
  by_cases hlt : ⌊g⌋.toNat < a.n
  · refine ⟨⌊g⌋.toNat, hlt, (inCell_iff hl).mpr ?_⟩
    have h0 : 0 ≤ ⌊g⌋ := Int.floor_nonneg.mpr h1
    have ec : ((⌊g⌋.toNat : Nat) : K) = (⌊g⌋ : K) := by
      rw [← Int.cast_natCast, Int.toNat_of_nonneg h0]
    rw [ec, hg]
    exact ⟨Int.floor_le g, (Int.lt_floor_add_one g).le⟩
  · refine ⟨a.n - 1, by omega, (inCell_iff hl).mpr ?_⟩
    have h0 : 0 ≤ ⌊g⌋ := Int.floor_nonneg.mpr h1
    have h3 : (a.n : ℤ) ≤ ⌊g⌋ := by omega
    have h4 : (a.n : K) ≤ g := by have := Int.le_floor.mp h3; push_cast at this; exact this
    rw [hg, e]
    exact ⟨by linarith, h2⟩

/-- a range of the image converted to cells: it never fails, and all the cells meet the interval -/
theorem toGrid_exact {a : Axis K} (hl : a.leaf ≠ 0) (hn : 0 < a.n) {X : Itv K} {x : K} (hx : x ∈ X) (hI : x ∈ toWorld (exactOps K) a (0, a.n - 1)) :
    ∃ c, toGrid (exactOps K) a X = some c ∧ ∀ l : Nat, c.1 ≤ l → l ≤ c.2 → ∃ u, u ∈ X ∧ InCell a l u := by
  obtain ⟨k, kn, hk⟩ := image_cell hl hn hI
  have m := cell_mem (exactOps K) hl hx hk
  obtain ⟨c, hc⟩ := pixels_total m kn
  exact ⟨c, hc, fun l l1 l2 => mem_cell hl (((pixels_some hc).2 k m kn).2 l l1 l2)⟩

/-- in a range of cells whose first and last meet the interval, a point of the interval has a point of the first or last cell on each side -/
theorem between {a : Axis K} (hl : a.leaf ≠ 0) {c : Nat × Nat} {X : Itv K} {x u v : K} (hx : x ∈ X) (hc : (c.1 : K) ≤ (x - a.o) / a.leaf ∧ (x - a.o) / a.leaf ≤ c.2 + 1)
    (hu : u ∈ X) (hu' : InCell a c.1 u) (hv : v ∈ X) (hv' : InCell a c.2 v) :
    ∃ u' v', (u' ∈ X ∧ InCell a c.1 u') ∧ (v' ∈ X ∧ InCell a c.2 v') ∧ ((u' ≤ x ∧ x ≤ v') ∨ (v' ≤ x ∧ x ≤ u')) := by
  have ord : ∀ {p q : K}, (p - a.o) / a.leaf ≤ (q - a.o) / a.leaf → (0 < a.leaf → p ≤ q) ∧ (a.leaf < 0 → q ≤ p) := by
    intro p q h
    constructor
    · intro h0; rw [div_le_div_iff_of_pos_right h0] at h; linarith
    · intro h0; rw [div_le_div_right_of_neg h0] at h; linarith
  obtain ⟨u', m1, c1, o1⟩ : ∃ u', u' ∈ X ∧ InCell a c.1 u' ∧ (u' - a.o) / a.leaf ≤ (x - a.o) / a.leaf := by
    by_cases h : (x - a.o) / a.leaf ≤ c.1 + 1
    · exact ⟨x, hx, (inCell_iff hl).mpr ⟨hc.1, h⟩, le_refl _⟩
    · exact ⟨u, hu, hu', le_trans ((inCell_iff hl).mp hu').2 (not_le.mp h).le⟩
  obtain ⟨v', m2, c2, o2⟩ : ∃ v', v' ∈ X ∧ InCell a c.2 v' ∧ (x - a.o) / a.leaf ≤ (v' - a.o) / a.leaf := by
    by_cases h : (c.2 : K) ≤ (x - a.o) / a.leaf
    · exact ⟨x, hx, (inCell_iff hl).mpr ⟨h, hc.2⟩, le_refl _⟩
    · exact ⟨v, hv, hv', le_trans (not_le.mp h).le ((inCell_iff hl).mp hv').1⟩
  refine ⟨u', v', ⟨m1, c1⟩, ⟨m2, c2⟩, ?_⟩
  rcases lt_or_gt_of_ne hl with h | h
  · right; exact ⟨(ord o2).2 h, (ord o1).2 h⟩
  · left; exact ⟨(ord o1).1 h, (ord o2).1 h⟩

theorem exists_in2 {X : B2 K} (h : X.isEmpty = false) : ∃ x y, In2 X x y := by
  unfold B2.isEmpty at h
  rw [Bool.or_eq_false_iff] at h
  obtain ⟨x, hx⟩ := Itv.exists_mem (X := X.p) (by rintro e; rw [e] at h; exact absurd h.1 (by simp [Itv.isEmpty]))
  obtain ⟨y, hy⟩ := Itv.exists_mem (X := X.q) (by rintro e; rw [e] at h; exact absurd h.2 (by simp [Itv.isEmpty]))
  exact ⟨x, y, hx, hy⟩

/-- the points of the pixels of value 1 -/
def InSet (m : Img K) (px : Nat → Nat → Bool) (x y : K) : Prop := ∃ i j, px i j = true ∧ InPixel m i j x y

/-- with exact arithmetic: the contractor always ends, and (unless the box is left as it is) a point of the result has points of the box which are in pixels of
value 1 on both sides, for each coordinate -/
theorem contract_exact {m : Img K} {px : Nat → Nat → Bool} (hx : m.ax.leaf ≠ 0) (hy : m.ay.leaf ≠ 0) (nx : 0 < m.ax.n) (ny : 0 < m.ay.n)
    (ht : Summed m.table px m.ax.n m.ay.n) (hwh : m.ax.n * m.ay.n < 2 ^ 31) {inner : Bool} {X : B2 K} :
    ∃ Z, contract (exactOps K) m inner X = some Z ∧
      ((inner = true ∧ X.subset (imageBox (exactOps K) m) = false ∧ Z = X) ∨
        ∀ x y, In2 Z x y →
          (∃ x1 y1 x2 y2, (In2 X x1 y1 ∧ InSet m px x1 y1) ∧ (In2 X x2 y2 ∧ InSet m px x2 y2) ∧ x1 ≤ x ∧ x ≤ x2) ∧
          (∃ x1 y1 x2 y2, (In2 X x1 y1 ∧ InSet m px x1 y1) ∧ (In2 X x2 y2 ∧ InSet m px x2 y2) ∧ y1 ≤ y ∧ y ≤ y2)) := by
  unfold contract
  split
  · rename_i h
    exact ⟨X, rfl, .inr fun x y h' => by rw [in2_not_empty h'] at h; cases h⟩
  split
  · rename_i h
    exact ⟨X, rfl, .inl ⟨h.1, by simpa using h.2, rfl⟩⟩
  simp only
  generalize hY : X.inter (imageBox (exactOps K) m) = Y
  split
  · rename_i h
    exact ⟨Y, rfl, .inr fun x y h' => by rw [in2_not_empty h'] at h; cases h⟩
  rename_i hYe
  obtain ⟨x0, y0, h0⟩ := exists_in2 (by simpa using hYe : Y.isEmpty = false)
  have hsub : Y.subset ⟨mapperBox (exactOps K) m.ax, mapperBox (exactOps K) m.ay⟩ = true := by
    rw [← hY]; exact inter_subset (imageBox_le (exactOps K) m.ax) (imageBox_le (exactOps K) m.ay)
  have inX : ∀ x y, In2 Y x y → In2 X x y := fun x y h => by rw [← hY] at h; exact (in2_inter.mp h).1
  have inI : In2 (imageBox (exactOps K) m) x0 y0 := by rw [← hY] at h0; exact (in2_inter.mp h0).2
  obtain ⟨a, ha, ha'⟩ := toGrid_exact hx nx h0.1 inI.1
  obtain ⟨b, hb, hb'⟩ := toGrid_exact hy ny h0.2 inI.2
  have hw : worldToGrid (exactOps K) m Y = some ⟨a.1, a.2, b.1, b.2⟩ := by
    unfold worldToGrid
    rw [if_neg (by simp [hsub])]
    simp only [ha, hb]
  simp only [hw]
  have hf := worldToGrid_fits hw
  split
  · exact ⟨_, rfl, .inr fun x y h' => absurd h'.1 (Itv.not_mem_empty _)⟩
  rename_i hcount
  have hh : Has px ⟨a.1, a.2, b.1, b.2⟩ := by
    rw [← ones_pos]
    rw [count_eq ht hwh hf] at hcount
    have := ones_nonneg px ⟨a.1, a.2, b.1, b.2⟩
    omega
  have T := contractDim_tight ht hwh hf hh
  generalize contractDim m.table ⟨a.1, a.2, b.1, b.2⟩ = s at T
  obtain ⟨t1, t2, t3, t4, t5, t6⟩ := T.le
  simp only at t1 t2 t3 t4 t5 t6
  obtain ⟨f1, f2, f3, f4⟩ := hf
  simp only at f1 f2 f3 f4
  refine ⟨_, rfl, .inr ?_⟩
  intro x y hxy
  obtain ⟨hYxy, hW⟩ := in2_inter.mp hxy
  obtain ⟨j1, j1a, j1b, p1⟩ := T.left
  obtain ⟨j2, j2a, j2b, p2⟩ := T.right
  obtain ⟨i3, i3a, i3b, p3⟩ := T.bottom
  obtain ⟨i4, i4a, i4b, p4⟩ := T.top
  simp only at j1a j1b j2a j2b i3a i3b i4a i4b
  constructor
  · obtain ⟨u, hu, hu'⟩ := ha' s.x0 (by omega) (by omega)
    obtain ⟨v, hv, hv'⟩ := ha' s.x1 (by omega) (by omega)
    obtain ⟨u', v', ⟨m1, c1⟩, ⟨m2, c2⟩, ho⟩ := between hx (c := (s.x0, s.x1)) hYxy.1 (toWorld_exact hx t2 hW.1) hu hu' hv hv'
    obtain ⟨w1, hw1, hw1'⟩ := hb' j1 j1a j1b
    obtain ⟨w2, hw2, hw2'⟩ := hb' j2 j2a j2b
    have P1 : In2 X u' w1 ∧ InSet m px u' w1 := ⟨inX _ _ ⟨m1, hw1⟩, s.x0, j1, p1, by omega, by omega, c1, hw1'⟩
    have P2 : In2 X v' w2 ∧ InSet m px v' w2 := ⟨inX _ _ ⟨m2, hw2⟩, s.x1, j2, p2, by omega, by omega, c2, hw2'⟩
    rcases ho with ho | ho
    · exact ⟨u', w1, v', w2, P1, P2, ho⟩
    · exact ⟨v', w2, u', w1, P2, P1, ho⟩
  · obtain ⟨u, hu, hu'⟩ := hb' s.y0 (by omega) (by omega)
    obtain ⟨v, hv, hv'⟩ := hb' s.y1 (by omega) (by omega)
    obtain ⟨u', v', ⟨m1, c1⟩, ⟨m2, c2⟩, ho⟩ := between hy (c := (s.y0, s.y1)) hYxy.2 (toWorld_exact hy t5 hW.2) hu hu' hv hv'
    obtain ⟨w1, hw1, hw1'⟩ := ha' i3 i3a i3b
    obtain ⟨w2, hw2, hw2'⟩ := ha' i4 i4a i4b
    have P1 : In2 X w1 u' ∧ InSet m px w1 u' := ⟨inX _ _ ⟨hw1, m1⟩, i3, s.y0, p3, by omega, by omega, hw1', c1⟩
    have P2 : In2 X w2 v' ∧ InSet m px w2 v' := ⟨inX _ _ ⟨hw2, m2⟩, i4, s.y1, p4, by omega, by omega, hw2', c2⟩
    rcases ho with ho | ho
    · exact ⟨w1, u', w2, v', P1, P2, ho⟩
    · exact ⟨w2, v', w1, u', P2, P1, ho⟩

end Codac.Raster
