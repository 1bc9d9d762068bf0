import Verif.Geometry.Polygon
import Mathlib.Data.List.Rotate

/-!
# Convex polygons given by the list of their vertices

Geometry used by the proofs on `ConvexPolygon`. `σ` gives the orientation of the list: positive for counterclockwise, negative for
clockwise.
-/

set_option linter.unusedSectionVars false

namespace Codac.Poly
open Codac.Graham

variable {K : Type*} [Field K] [LinearOrder K] [IsStrictOrderedRing K]

/-- no turn on the wrong side along the list -/
def Turns (σ : K) (v : List (Pt K)) : Prop := ∀ a b c : Pt K, [a, b, c].Sublist v → 0 ≤ σ * cr a b c

/-- abscissa of `u` along the line from `a` to `b` (not normalised) -/
def dot (a b u : Pt K) : K := (b.1 - a.1) * (u.1 - a.1) + (b.2 - a.2) * (u.2 - a.2)

/-- squared length -/
def nsq (a b : Pt K) : K := (b.1 - a.1) ^ 2 + (b.2 - a.2) ^ 2

theorem nsq_pos {a b : Pt K} (h : a ≠ b) : 0 < nsq a b := by
  unfold nsq
  by_contra hn
  have h1 : (b.1 - a.1) ^ 2 = 0 := by nlinarith [sq_nonneg (b.1 - a.1), sq_nonneg (b.2 - a.2)]
  have h2 : (b.2 - a.2) ^ 2 = 0 := by nlinarith [sq_nonneg (b.1 - a.1), sq_nonneg (b.2 - a.2)]
  have h1' := pow_eq_zero_iff (two_ne_zero) |>.mp h1
  have h2' := pow_eq_zero_iff (two_ne_zero) |>.mp h2
  exact h (Prod.ext (by linarith) (by linarith))

theorem eq_of_dot {a b u w : Pt K} (h : a ≠ b) (hu : cr a b u = 0) (hw : cr a b w = 0) (hd : dot a b u = dot a b w) : u = w := by
  have hn := nsq_pos h
  have e1 : nsq a b * (u.1 - w.1) = 0 := by
    unfold nsq; unfold cr at hu hw; unfold dot at hd
    linear_combination (b.1 - a.1) * hd - (b.2 - a.2) * (hu - hw)
  have e2 : nsq a b * (u.2 - w.2) = 0 := by
    unfold nsq; unfold cr at hu hw; unfold dot at hd
    linear_combination (b.2 - a.2) * hd + (b.1 - a.1) * (hu - hw)
  refine Prod.ext ?_ ?_
  · have := (mul_eq_zero.mp e1).resolve_left hn.ne'; linarith
  · have := (mul_eq_zero.mp e2).resolve_left hn.ne'; linarith

theorem cr_line {a b u w : Pt K} (z : Pt K) (hu : cr a b u = 0) (hw : cr a b w = 0) :
    nsq a b * cr u w z = (dot a b w - dot a b u) * cr a b z := by
  unfold nsq dot; unfold cr at *
  linear_combination (-((b.1 - a.1) * (w.1 - a.1) + (b.2 - a.2) * (w.2 - a.2) - ((b.1 - a.1) * (u.1 - a.1) + (b.2 - a.2) * (u.2 - a.2)))) * hu
    - ((b.2 - a.2) * (z.2 - u.2) + (b.1 - a.1) * (z.1 - u.1)) * (hw - hu)

/-- three points on a line are aligned -/
theorem cr_of_line {a b x y w : Pt K} (h : a ≠ b) (hx : cr a b x = 0) (hy : cr a b y = 0) (hw : cr a b w = 0) : cr x y w = 0 := by
  have := cr_line w hx hy
  rw [hw, mul_zero] at this
  exact (mul_eq_zero.mp this).resolve_left (nsq_pos h).ne'

/-- `q` is on the segment from `a` to `b` -/
def OnSeg (a b q : Pt K) : Prop := ∃ s : K, 0 ≤ s ∧ s ≤ 1 ∧ q.1 = a.1 + s * (b.1 - a.1) ∧ q.2 = a.2 + s * (b.2 - a.2)

theorem OnSeg.left (a b : Pt K) : OnSeg a b a := ⟨0, le_rfl, zero_le_one, by ring, by ring⟩
theorem OnSeg.right (a b : Pt K) : OnSeg a b b := ⟨1, zero_le_one, le_rfl, by ring, by ring⟩

theorem OnSeg.symm {a b q : Pt K} (h : OnSeg a b q) : OnSeg b a q := by
  obtain ⟨s, h1, h2, h3, h4⟩ := h
  exact ⟨1 - s, by linarith, by linarith, by rw [h3]; ring, by rw [h4]; ring⟩

theorem OnSeg.cr_eq {a b q : Pt K} (h : OnSeg a b q) : cr a b q = 0 := by
  obtain ⟨s, _, _, h3, h4⟩ := h
  unfold cr; rw [h3, h4]; ring

theorem onSeg_iff_segment {a b q : Pt K} : OnSeg a b q ↔ q ∈ segment K a b := by
  constructor
  · rintro ⟨s, h1, h2, h3, h4⟩
    refine ⟨1 - s, s, by linarith, h1, by ring, Prod.ext ?_ ?_⟩
    · simp only [Prod.fst_add, Prod.smul_fst, smul_eq_mul]; rw [h3]; ring
    · simp only [Prod.snd_add, Prod.smul_snd, smul_eq_mul]; rw [h4]; ring
  · rintro ⟨s, t, hs, ht, hst, rfl⟩
    refine ⟨t, ht, by linarith, ?_, ?_⟩
    · simp only [Prod.fst_add, Prod.smul_fst, smul_eq_mul]; linear_combination a.1 * hst
    · simp only [Prod.snd_add, Prod.smul_snd, smul_eq_mul]; linear_combination a.2 * hst

/-- on a line, a point whose abscissa is between those of two others is on their segment -/
theorem onSeg_of_dot {a b x y q : Pt K} (h : a ≠ b) (hx : cr a b x = 0) (hy : cr a b y = 0) (hq : cr a b q = 0)
    (h1 : dot a b x ≤ dot a b q) (h2 : dot a b q ≤ dot a b y) : OnSeg x y q := by
  rcases eq_or_lt_of_le (le_trans h1 h2) with he | hl
  · have : q = x := eq_of_dot h hq hx (by linarith)
    rw [this]; exact OnSeg.left x y
  · have hn := nsq_pos h
    have hd : dot a b y - dot a b x ≠ 0 := by linarith [sub_pos.mpr hl]
    refine ⟨(dot a b q - dot a b x) / (dot a b y - dot a b x), div_nonneg (by linarith) (by linarith),
      (div_le_one (by linarith)).mpr (by linarith), ?_, ?_⟩
    · have e : (dot a b y - dot a b x) * (q.1 - x.1) = (dot a b q - dot a b x) * (y.1 - x.1) := by
        apply mul_left_cancel₀ hn.ne'
        unfold nsq dot; unfold cr at hx hy hq
        linear_combination (-(b.2 - a.2)) * ((b.1 - a.1) * (y.1 - a.1) + (b.2 - a.2) * (y.2 - a.2) - ((b.1 - a.1) * (x.1 - a.1) + (b.2 - a.2) * (x.2 - a.2))) * (hq - hx) + (b.2 - a.2) * ((b.1 - a.1) * (q.1 - a.1) + (b.2 - a.2) * (q.2 - a.2) - ((b.1 - a.1) * (x.1 - a.1) + (b.2 - a.2) * (x.2 - a.2))) * (hy - hx)
      field_simp
      linear_combination e
    · have e : (dot a b y - dot a b x) * (q.2 - x.2) = (dot a b q - dot a b x) * (y.2 - x.2) := by
        apply mul_left_cancel₀ hn.ne'
        unfold nsq dot; unfold cr at hx hy hq
        linear_combination (b.1 - a.1) * ((b.1 - a.1) * (y.1 - a.1) + (b.2 - a.2) * (y.2 - a.2) - ((b.1 - a.1) * (x.1 - a.1) + (b.2 - a.2) * (x.2 - a.2))) * (hq - hx) - (b.1 - a.1) * ((b.1 - a.1) * (q.1 - a.1) + (b.2 - a.2) * (q.2 - a.2) - ((b.1 - a.1) * (x.1 - a.1) + (b.2 - a.2) * (x.2 - a.2))) * (hy - hx)
      field_simp
      linear_combination e

theorem OnSeg.dot_between {x y q a b : Pt K} (h : OnSeg x y q) :
    (dot a b x ≤ dot a b q ∧ dot a b q ≤ dot a b y) ∨ (dot a b y ≤ dot a b q ∧ dot a b q ≤ dot a b x) := by
  obtain ⟨s, h1, h2, h3, h4⟩ := h
  have e : dot a b q = dot a b x + s * (dot a b y - dot a b x) := by unfold dot; rw [h3, h4]; ring
  rcases le_total (dot a b x) (dot a b y) with h | h
  · left; constructor <;> nlinarith
  · right; constructor <;> nlinarith

/-! ### Edges, rotations -/

theorem mem_edges {v : List (Pt K)} {e : Edge K} :
    e ∈ edges v ↔ ∃ (i : Nat) (h : i < v.length), e.1 = v[i] ∧ e.2 = v[(i + 1) % v.length]'(Nat.mod_lt _ (by omega)) := by
  unfold edges
  rw [List.mem_iff_getElem]
  have hl : (v.tail ++ v.take 1).length = v.length := by
    cases v <;> simp
  constructor
  · rintro ⟨i, hi, rfl⟩
    have hi' : i < v.length := by
      rw [List.length_zip] at hi; omega
    refine ⟨i, hi', by simp, ?_⟩
    rw [List.getElem_zip]
    dsimp only
    rw [List.getElem_append]
    split
    · next h =>
      rw [List.length_tail] at h
      rw [List.getElem_tail]
      congr 1
      rw [Nat.mod_eq_of_lt (by omega)]
    · next h =>
      rw [List.length_tail] at h
      have : i = v.length - 1 := by omega
      rw [List.getElem_take]
      congr 1
      rw [List.length_tail, this, Nat.sub_self, Nat.sub_add_cancel (by omega), Nat.mod_self]
  · rintro ⟨i, hi, h1, h2⟩
    refine ⟨i, by rw [List.length_zip, hl]; omega, ?_⟩
    rw [List.getElem_zip]
    refine Prod.ext h1.symm ?_
    rw [h2]
    dsimp only
    rw [List.getElem_append]
    split
    · next h =>
      rw [List.length_tail] at h
      rw [List.getElem_tail]
      congr 1
      rw [Nat.mod_eq_of_lt (by omega)]
    · next h =>
      rw [List.length_tail] at h
      have : i = v.length - 1 := by omega
      rw [List.getElem_take]
      congr 1
      rw [List.length_tail, this, Nat.sub_self, Nat.sub_add_cancel (by omega), Nat.mod_self]

theorem edges_length (v : List (Pt K)) : (edges v).length = v.length := by
  unfold edges
  rw [List.length_zip]
  cases v <;> simp

theorem edges_getElem {v : List (Pt K)} {i : Nat} (h : i < (edges v).length) :
    (edges v)[i] = (v[i]'(by rw [edges_length] at h; exact h), v[(i + 1) % v.length]'(Nat.mod_lt _ (by rw [edges_length] at h; omega))) := by
  have hi' : i < v.length := by rw [edges_length] at h; exact h
  have e : (edges v)[i] = (v[i], (v.tail ++ v.take 1)[i]'(by
      have : (v.tail ++ v.take 1).length = v.length := by cases v <;> simp
      omega)) := List.getElem_zip
  rw [e]
  refine Prod.ext rfl ?_
  dsimp only
  rw [List.getElem_append]
  split
  · next h =>
    rw [List.length_tail] at h
    rw [List.getElem_tail]
    congr 1
    rw [Nat.mod_eq_of_lt (by omega)]
  · next h =>
    rw [List.length_tail] at h
    have : i = v.length - 1 := by omega
    rw [List.getElem_take]
    congr 1
    rw [List.length_tail, this, Nat.sub_self, Nat.sub_add_cancel (by omega), Nat.mod_self]

theorem mem_edges_rotate {v : List (Pt K)} {e : Edge K} (k : Nat) : e ∈ edges (v.rotate k) ↔ e ∈ edges v := by
  have key : ∀ (v : List (Pt K)) (k : Nat), e ∈ edges (v.rotate k) → e ∈ edges v := by
    intro v k
    rw [mem_edges, mem_edges]
    rintro ⟨i, hi, h1, h2⟩
    have hl : (v.rotate k).length = v.length := List.length_rotate _ _
    rw [hl] at hi
    refine ⟨(i + k) % v.length, Nat.mod_lt _ (by omega), ?_, ?_⟩
    · rw [h1, List.getElem_rotate]
    · rw [h2, List.getElem_rotate]
      congr 1
      simp only [hl, Nat.mod_add_mod]
      congr 1
      omega
  constructor
  · exact key v k
  · intro h
    by_cases hv : v = []
    · subst hv; simp [edges] at h
    have hp : 0 < v.length := List.length_pos_iff.mpr hv
    have : (v.rotate k).rotate (v.length - k % v.length) = v := by
      rw [List.rotate_rotate]
      have e : v.rotate (k + (v.length - k % v.length)) = v.rotate 0 := by
        rw [← List.rotate_mod v (k + (v.length - k % v.length))]
        congr 1
        have h1 := Nat.mod_lt k hp
        have h2 := Nat.div_add_mod k v.length
        have : k + (v.length - k % v.length) = v.length * (k / v.length + 1) := by
          rw [Nat.mul_add, Nat.mul_one]; omega
        rw [this, Nat.mul_mod_right]
      rw [e, List.rotate_zero]
    rw [← this] at h
    exact key _ _ h

theorem Turns.rotate {σ : K} {v : List (Pt K)} (h : Turns σ v) (k : Nat) : Turns σ (v.rotate k) := by
  induction k generalizing v with
  | zero => rwa [List.rotate_zero]
  | succ k ih =>
    cases v with
    | nil => rwa [List.rotate_nil]
    | cons x l =>
      rw [List.rotate_cons_succ]
      apply ih
      intro a b c hs
      rw [List.sublist_append_iff] at hs
      obtain ⟨l1, l2, e, s1, s2⟩ := hs
      rcases List.sublist_singleton.mp s2 with rfl | rfl
      · rw [List.append_nil] at e
        subst e
        exact h a b c (s1.cons x)
      · have e' : [a, b] ++ [c] = l1 ++ [x] := by simpa using e
        obtain ⟨e1, e2⟩ := List.append_inj' e' rfl
        subst e1
        injection e2 with e2 _
        subst e2
        have := h c a b (List.Sublist.cons_cons _ s1)
        rwa [← cr_cycle c a b] at this

theorem exists_rotate {v : List (Pt K)} {z : Pt K} (h : z ∈ v) : ∃ k rest, v.rotate k = z :: rest := by
  obtain ⟨s, t, rfl⟩ := List.append_of_mem h
  refine ⟨s.length, t ++ s, ?_⟩
  rw [List.rotate_append_length_eq, List.cons_append]

/-- two consecutive elements of the list are an edge -/
theorem mem_edges_of_infix {v : List (Pt K)} {a b : Pt K} (h : [a, b] <:+: v) : (a, b) ∈ edges v := by
  rw [mem_edges]
  obtain ⟨s, t, rfl⟩ := h
  refine ⟨s.length, by simp, by simp, ?_⟩
  have hl : (s ++ [a, b] ++ t).length = s.length + 2 + t.length := by simp; omega
  have e : (s.length + 1) % (s ++ [a, b] ++ t).length = s.length + 1 := Nat.mod_eq_of_lt (by omega)
  simp only [e]
  simp

theorem mem_edges_last {z y : Pt K} {l : List (Pt K)} (h : (z :: l).getLast? = some y) : (y, z) ∈ edges (z :: l) := by
  rw [mem_edges]
  refine ⟨l.length, by simp, ?_, ?_⟩
  · rw [List.getLast?_eq_getElem?] at h
    have : (z :: l)[l.length]? = some y := by simpa using h
    rw [List.getElem?_eq_getElem (by simp)] at this
    exact (Option.some.inj this).symm
  · have : (l.length + 1) % (z :: l).length = 0 := by simp
    simp only [this]
    rfl

/-- edges of a list that begins with `z`: either two consecutive elements, or the last one and `z` -/
theorem edge_cases {z : Pt K} {l : List (Pt K)} {a b : Pt K} (h : (a, b) ∈ edges (z :: l)) :
    [a, b] <:+: z :: l ∨ b = z := by
  rw [mem_edges] at h
  obtain ⟨i, hi, h1, h2⟩ := h
  by_cases hn : i + 1 < (z :: l).length
  · left
    have e : (i + 1) % (z :: l).length = i + 1 := Nat.mod_eq_of_lt hn
    simp only [e] at h2
    simp only at h1 h2
    refine ⟨(z :: l).take i, (z :: l).drop (i + 2), ?_⟩
    rw [h1, h2]
    have s1 := List.drop_eq_getElem_cons hi
    have s2 := List.drop_eq_getElem_cons hn
    have := List.take_append_drop i (z :: l)
    rw [s1, s2] at this
    simpa using this
  · right
    have : i + 1 = (z :: l).length := by omega
    simp only [this, Nat.mod_self] at h2
    exact h2

/-! ### Vertices on the line of an edge -/

/-- from a vertex `z` off the line, the vertices on the line of an edge are in the order of the line -/
theorem mono_line {σ : K} {z a b : Pt K} {rest : List (Pt K)} (ht : Turns σ (z :: rest)) (hn : (z :: rest).Nodup) (hab : a ≠ b)
    (hz : 0 < σ * cr a b z) : rest.Pairwise fun u w => cr a b u = 0 → cr a b w = 0 → dot a b u < dot a b w := by
  rw [List.pairwise_iff_forall_sublist]
  intro u w hs hu hw
  have h1 := ht z u w (List.Sublist.cons_cons _ hs)
  rw [← cr_cycle] at h1
  have h2 := cr_line z hu hw
  have hnp := nsq_pos hab
  have huw : u ≠ w := by
    have : [u, w].Nodup := (List.nodup_cons.mp hn).2.sublist hs
    intro e; subst e; simp at this
  rcases lt_trichotomy (dot a b u) (dot a b w) with h | h | h
  · exact h
  · exact absurd (eq_of_dot hab hu hw h) huw
  · have h3 : nsq a b * (σ * cr u w z) = (dot a b w - dot a b u) * (σ * cr a b z) := by linear_combination σ * h2
    have h4 := mul_nonneg hnp.le h1
    nlinarith [mul_pos (sub_pos.mpr h) hz]

/-- beyond a vertex of the line, the edges go on along the line until they pass the point -/
theorem fwd_line {σ : K} {z a b r : Pt K} (hab : a ≠ b) (hz : 0 < σ * cr a b z) (hr : cr a b r = 0) (l : List (Pt K)) :
    ∀ x : Pt K, cr a b x = 0 → dot a b x ≤ dot a b r → (∀ u w, [u, w] <:+: x :: (l ++ [z]) → 0 ≤ σ * cr u w r) →
      ((x :: l).Pairwise fun u w => cr a b u = 0 → cr a b w = 0 → dot a b u < dot a b w) → (∀ u ∈ l, 0 ≤ σ * cr a b u) →
      ∃ u w, [u, w] <:+: x :: (l ++ [z]) ∧ OnSeg u w r := by
  have hnp := nsq_pos hab
  -- an edge leaving the line
  have leave : ∀ x y : Pt K, cr a b x = 0 → dot a b x ≤ dot a b r → 0 < σ * cr a b y → 0 ≤ σ * cr x y r → OnSeg x y r := by
    intro x y hx hd hy h
    have e := cr_line y hx hr
    rw [cr_swap] at e
    have e1 : nsq a b * (σ * cr x y r) = - ((dot a b r - dot a b x) * (σ * cr a b y)) := by
      have : cr x r y = - cr x y r := cr_swap x y r
      linear_combination (-σ) * e
    have h1 := mul_nonneg hnp.le h
    have h2 : (dot a b r - dot a b x) * (σ * cr a b y) ≤ 0 := by linarith
    have h3 : dot a b r = dot a b x := by
      by_contra hne
      have : 0 < dot a b r - dot a b x := by
        rcases lt_or_eq_of_le hd with h | h
        · linarith
        · exact absurd h.symm hne
      nlinarith [mul_pos this hy]
    rw [eq_of_dot hab hr hx h3]
    exact OnSeg.left x y
  induction l with
  | nil =>
    intro x hx hd he _ _
    exact ⟨x, z, List.infix_rfl, leave x z hx hd hz (he x z List.infix_rfl)⟩
  | cons y l ih =>
    intro x hx hd he hp hl
    have hxy : [x, y] <:+: x :: (y :: l ++ [z]) := ⟨[], l ++ [z], by simp⟩
    rcases eq_or_lt_of_le (hl y (by simp)) with h0 | h0
    · have hy : cr a b y = 0 := by
        rcases mul_eq_zero.mp h0.symm with h | h
        · rw [h, zero_mul] at hz; exact absurd hz (lt_irrefl _)
        · exact h
      rcases le_total (dot a b r) (dot a b y) with h | h
      · exact ⟨x, y, hxy, onSeg_of_dot hab hx hy hr hd h⟩
      · obtain ⟨u, w, h1, h2⟩ := ih y hy h (fun u w hi => he u w (hi.trans ⟨[x], [], by simp⟩)) (List.pairwise_cons.mp hp).2
          (fun u hu => hl u (List.mem_cons_of_mem _ hu))
        exact ⟨u, w, h1.trans ⟨[x], [], by simp⟩, h2⟩
    · exact ⟨x, y, hxy, leave x y hx hd h0 (he x y hxy)⟩

theorem infix_cases {l : List (Pt K)} {z a b : Pt K} (h : [a, b] <:+: z :: l) (hz : a ≠ z) : [a, b] <:+: l := by
  rw [List.infix_cons_iff] at h
  rcases h with h | h
  · obtain ⟨t, e⟩ := h
    injection e with e _
    exact absurd e hz
  · exact h

/-- a point on the good side of all edges and on the line of one of them is on an edge -/
theorem edge_on {σ : K} {v : List (Pt K)} (ht : Turns σ v) (hn : v.Nodup) {a b z r : Pt K} (he : (a, b) ∈ edges v) (hz : z ∈ v)
    (hzp : 0 < σ * cr a b z) (hH : ∀ e ∈ edges v, 0 ≤ σ * cr e.1 e.2 r) (hL : ∀ u ∈ v, 0 ≤ σ * cr a b u) (hr : cr a b r = 0) :
    ∃ e ∈ edges v, OnSeg e.1 e.2 r := by
  obtain ⟨k, rest, hk⟩ := exists_rotate hz
  have ht' := ht.rotate k
  have hn' : (v.rotate k).Nodup := List.nodup_rotate.mpr hn
  rw [hk] at ht' hn'
  have hab : a ≠ b := by
    intro e; subst e
    rw [cr_left, mul_zero] at hzp; exact lt_irrefl _ hzp
  have haz : a ≠ z := by
    intro e; subst e
    rw [cr_swap, cr_left, neg_zero, mul_zero] at hzp; exact lt_irrefl _ hzp
  have hbz : b ≠ z := by
    intro e; subst e
    rw [cr_self, mul_zero] at hzp; exact lt_irrefl _ hzp
  have hE : ∀ e, e ∈ edges (z :: rest) ↔ e ∈ edges v := fun e => by rw [← hk]; exact mem_edges_rotate k
  have hin : [a, b] <:+: rest := by
    rcases edge_cases ((hE _).mpr he) with h | h
    · exact infix_cases h haz
    · exact absurd h hbz
  have hLr : ∀ u ∈ rest, 0 ≤ σ * cr a b u := fun u hu => hL u (by
    have : u ∈ v.rotate k := by rw [hk]; exact List.mem_cons_of_mem _ hu
    exact List.mem_rotate.mp this)
  have hmono := mono_line ht' hn' hab hzp
  obtain ⟨pre, post, e⟩ := hin
  have ca : cr a b a = 0 := by rw [cr_swap, cr_left, neg_zero]
  have cb : cr a b b = 0 := cr_self a b
  -- consecutive elements of the closed list are edges
  have closed : ∀ u w, [u, w] <:+: (z :: rest) ++ [z] → (u, w) ∈ edges v := by
    intro u w hi
    rw [← hE]
    obtain ⟨s, t, hst⟩ := hi
    rcases t.eq_nil_or_concat with rfl | ⟨t, y, rfl⟩
    · have e' : (s ++ [u]) ++ [w] = (z :: rest) ++ [z] := by simpa using hst
      obtain ⟨e1, e2⟩ := List.append_inj' e' rfl
      injection e2 with e2 _
      subst e2
      apply mem_edges_last
      rw [← e1]; simp
    · have e' : (s ++ [u, w] ++ t) ++ [y] = (z :: rest) ++ [z] := by simpa using hst
      obtain ⟨e1, _⟩ := List.append_inj' e' rfl
      exact mem_edges_of_infix ⟨s, t, e1⟩
  rcases le_total (dot a b b) (dot a b r) with h | h
  · obtain ⟨u, w, h1, h2⟩ := fwd_line hab hzp hr post b cb h (fun u w hi => hH (u, w) (closed u w (hi.trans
        ⟨z :: (pre ++ [a]), [], by rw [← e]; simp⟩))) (hmono.sublist (by rw [← e]; exact
          (List.sublist_append_of_sublist_right (List.Sublist.refl (b :: post))).trans (by
            rw [show pre ++ [a, b] ++ post = (pre ++ [a]) ++ b :: post by simp]))) (fun u hu => hLr u (by rw [← e]; simp [hu]))
    exact ⟨(u, w), closed u w (h1.trans ⟨z :: (pre ++ [a]), [], by rw [← e]; simp⟩), h2⟩
  rcases le_total (dot a b a) (dot a b r) with h' | h'
  · exact ⟨(a, b), he, onSeg_of_dot hab ca cb hr h' h⟩
  · -- backwards, from a
    have hcr : ∀ u, cr b a u = - cr a b u := fun u => by unfold cr; ring
    have hdot : ∀ u, dot b a u = nsq a b - dot a b u := fun u => by unfold dot nsq; ring
    have hrev : ∀ {u w : Pt K} {l : List (Pt K)}, [u, w] <:+: l.reverse → [w, u] <:+: l := by
      intro u w l hi
      have := List.reverse_infix.mpr hi
      simpa using this
    obtain ⟨u, w, h1, h2⟩ := fwd_line (σ := -σ) (a := b) (b := a) (z := z) (r := r) hab.symm (by rw [hcr]; linarith) (by rw [hcr, hr, neg_zero])
      pre.reverse a (by rw [hcr, ca, neg_zero]) (by rw [hdot, hdot]; linarith) (fun u w hi => by
        have hi' : [u, w] <:+: (z :: (pre ++ [a])).reverse := by simpa using hi
        have := hH (w, u) (closed w u ((hrev hi').trans ⟨[], b :: post ++ [z], by rw [← e]; simp⟩))
        have e2 : cr u w r = - cr w u r := by unfold cr; ring
        rw [e2]; simpa using this) (by
          have hs : (pre ++ [a]).Sublist rest := by rw [← e]; simp
          have hp := hmono.sublist hs
          have : (pre ++ [a]).reverse.Pairwise fun u w => cr b a u = 0 → cr b a w = 0 → dot b a u < dot b a w := by
            rw [List.pairwise_reverse]
            refine hp.imp ?_
            intro u w k hw hu
            rw [hcr] at hu hw
            rw [hdot, hdot]
            have := k (by linarith) (by linarith)
            linarith
          simpa using this) (fun u hu => by
            rw [hcr]
            have := hLr u (by rw [← e]; simp [List.mem_reverse.mp hu])
            linarith)
    have h1' : [w, u] <:+: z :: (pre ++ [a]) := hrev (by simpa using h1)
    exact ⟨(w, u), closed w u (h1'.trans ⟨[], b :: post ++ [z], by rw [← e]; simp⟩), h2.symm⟩

/-! ### Leaving the polygon -/

/-- every vertex is on the good side of every edge -/
theorem Turns.left {σ : K} {v : List (Pt K)} (ht : Turns σ v) {e : Edge K} (he : e ∈ edges v) : ∀ u ∈ v, 0 ≤ σ * cr e.1 e.2 u := by
  obtain ⟨a, b⟩ := e
  intro u hu
  obtain ⟨k, rest, hk⟩ := exists_rotate (v := v) (z := a) (by
    rw [mem_edges] at he
    obtain ⟨i, hi, h, _⟩ := he
    dsimp only at h
    rw [h]; exact List.getElem_mem _)
  have ht' := ht.rotate k
  rw [hk] at ht'
  have he' : (a, b) ∈ edges (a :: rest) := by rw [← hk, mem_edges_rotate]; exact he
  have hu' : u ∈ a :: rest := by rw [← hk]; exact List.mem_rotate.mpr hu
  dsimp only
  rcases List.mem_cons.mp hu' with rfl | hur
  · rw [cr_swap, cr_left, neg_zero, mul_zero]
  clear hu'
  by_cases hub : u = b
  · rw [hub, cr_self, mul_zero]
  rcases edge_cases he' with h | h
  · obtain ⟨s, t, e⟩ := h
    cases s with
    | nil =>
      simp only [List.nil_append, List.cons_append, List.cons.injEq, true_and] at e
      subst e
      have : u ∈ t := (List.mem_cons.mp hur).resolve_left hub
      exact ht' a b u (List.Sublist.cons_cons _ (List.Sublist.cons_cons _ (List.singleton_sublist.mpr this)))
    | cons x s =>
      simp only [List.cons_append, List.cons.injEq] at e
      obtain ⟨rfl, e⟩ := e
      -- `x` appears twice at least: same point
      have hx : x ∈ rest := by rw [← e]; simp
      have hb : b ∈ rest := by rw [← e]; simp
      by_cases hord : [b, u].Sublist rest
      · exact ht' x b u (List.Sublist.cons_cons _ hord)
      · have : u ∈ s ∨ u = x := by
          rw [← e] at hur
          simp only [List.append_assoc, List.mem_append, List.mem_cons, List.not_mem_nil, or_false] at hur
          rcases hur with h | (h | h) | h
          · exact .inl h
          · exact .inr h
          · exact absurd h hub
          · exfalso
            apply hord
            rw [← e]
            have : ([] ++ [b] ++ [u]).Sublist ((s ++ [x]) ++ [b] ++ t) :=
              ((List.nil_sublist _).append (List.Sublist.refl _)).append (List.singleton_sublist.mpr h)
            simpa using this
        rcases this with h | h
        · have h1 := ht' u x b (by
            rw [← e]
            have : ([u] ++ [x, b] ++ []).Sublist (s ++ [x, b] ++ t) :=
              ((List.singleton_sublist.mpr h).append (List.Sublist.refl _)).append (List.nil_sublist _)
            exact List.Sublist.cons _ (by simpa using this))
          rwa [cr_cycle]
        · rw [h, cr_swap, cr_left, neg_zero, mul_zero]
  · rw [h, cr_left, mul_zero]

/-- affine functions that are non negative on the vertices are non negative on the hull -/
theorem Hull.nonneg {v : List (Pt K)} {α β γ : K} (h : ∀ u ∈ v, 0 ≤ α * u.1 + β * u.2 + γ) {q : Pt K} (hq : q ∈ Hull v) :
    0 ≤ α * q.1 + β * q.2 + γ := by
  have hconv : Convex K {q : Pt K | 0 ≤ α * q.1 + β * q.2 + γ} := by
    intro x hx y hy s t hs ht hst
    show 0 ≤ α * (s • x + t • y).1 + β * (s • x + t • y).2 + γ
    have : α * (s • x + t • y).1 + β * (s • x + t • y).2 + γ = s * (α * x.1 + β * x.2 + γ) + t * (α * y.1 + β * y.2 + γ) := by
      simp only [Prod.fst_add, Prod.smul_fst, smul_eq_mul, Prod.snd_add, Prod.smul_snd]
      linear_combination (-γ) * hst
    rw [this]
    exact add_nonneg (mul_nonneg hs hx) (mul_nonneg ht hy)
  exact convexHull_min (s := {p | p ∈ v}) (fun u hu => h u hu) hconv hq

theorem Hull.left {v : List (Pt K)} {σ : K} {a b q : Pt K} (h : ∀ u ∈ v, 0 ≤ σ * cr a b u) (hq : q ∈ Hull v) : 0 ≤ σ * cr a b q := by
  have := Hull.nonneg (v := v) (α := - σ * (b.2 - a.2)) (β := σ * (b.1 - a.1)) (γ := σ * ((b.2 - a.2) * a.1 - (b.1 - a.1) * a.2))
    (fun u hu => by have := h u hu; unfold cr at this; linarith) hq
  unfold cr; linarith

/-- the vertices are not all aligned -/
def Solid (v : List (Pt K)) : Prop := ∃ a ∈ v, ∃ b ∈ v, ∃ c ∈ v, cr a b c ≠ 0

theorem Solid.off {v : List (Pt K)} (h : Solid v) {a b : Pt K} (hab : a ≠ b) : ∃ z ∈ v, cr a b z ≠ 0 := by
  by_contra hn
  push Not at hn
  obtain ⟨x, hx, y, hy, w, hw, h⟩ := h
  exact h (cr_of_line hab (hn x hx) (hn y hy) (hn w hw))

/-- the first of finitely many affine functions to vanish -/
theorem first_zero {ι : Type*} (l : List ι) (c s : ι → K) (hc : ∀ i ∈ l, 0 ≤ c i) (hs : ∃ i ∈ l, s i < 0) :
    ∃ t : K, 0 ≤ t ∧ (∀ i ∈ l, 0 ≤ c i + t * s i) ∧ ∃ i ∈ l, s i < 0 ∧ c i + t * s i = 0 := by
  induction l with
  | nil => obtain ⟨i, hi, _⟩ := hs; simp at hi
  | cons j l ih =>
    have hc' : ∀ i ∈ l, 0 ≤ c i := fun i hi => hc i (List.mem_cons_of_mem _ hi)
    by_cases hl : ∃ i ∈ l, s i < 0
    · obtain ⟨t, t0, h1, i, hi, h2, h3⟩ := ih hc' hl
      by_cases hj : 0 ≤ c j + t * s j
      · refine ⟨t, t0, ?_, i, List.mem_cons_of_mem _ hi, h2, h3⟩
        intro k hk
        rcases List.mem_cons.mp hk with rfl | hk
        · exact hj
        · exact h1 k hk
      · have hsj : s j < 0 := by
          by_contra hn
          exact hj (add_nonneg (hc j (by simp)) (mul_nonneg t0 (not_lt.mp hn)))
        have hlt : c j / (- s j) < t := by
          rw [div_lt_iff₀ (by linarith)]
          linarith [not_le.mp hj]
        have h0 : 0 ≤ c j / (- s j) := div_nonneg (hc j (by simp)) (by linarith)
        have e : c j + c j / (- s j) * s j = 0 := by
          have : s j ≠ 0 := hsj.ne
          field_simp; ring
        refine ⟨c j / (- s j), h0, ?_, j, by simp, hsj, e⟩
        intro k hk
        rcases List.mem_cons.mp hk with rfl | hk
        · exact e.ge
        · have h4 := h1 k hk
          by_cases hk0 : 0 ≤ s k
          · exact add_nonneg (hc' k hk) (mul_nonneg h0 hk0)
          · nlinarith [not_le.mp hk0]
    · push Not at hl
      obtain ⟨i, hi, hsi⟩ := hs
      rcases List.mem_cons.mp hi with rfl | hi
      · have h0 : 0 ≤ c i / (- s i) := div_nonneg (hc i (by simp)) (by linarith)
        have e : c i + c i / (- s i) * s i = 0 := by
          have : s i ≠ 0 := hsi.ne
          field_simp; ring
        refine ⟨c i / (- s i), h0, ?_, i, by simp, hsi, e⟩
        intro k hk
        rcases List.mem_cons.mp hk with rfl | hk
        · exact e.ge
        · exact add_nonneg (hc' k hk) (mul_nonneg h0 (hl k hk))
      · exact absurd hsi (not_lt.mpr (hl i hi))

/-- along the closed path, a function that never decreases is constant -/
theorem const_of_edges {v : List (Pt K)} (g : Pt K → K) (h : ∀ e ∈ edges v, g e.1 ≤ g e.2) : ∀ u ∈ v, ∀ w ∈ v, g u = g w := by
  have key : ∀ x l, (∀ e ∈ edges (x :: l), g e.1 ≤ g e.2) → ∀ w ∈ x :: l, g w ≤ g x := by
    intro x l h
    -- going back from the last element
    have : ∀ (l2 l1 : List (Pt K)), l1 ++ l2 = x :: l → ∀ w ∈ l2, g w ≤ g x := by
      intro l2
      induction l2 with
      | nil => intro l1 _ w hw; simp at hw
      | cons y l2 ih =>
        intro l1 e w hw
        have hy : g y ≤ g x := by
          cases l2 with
          | nil =>
            have : (y, x) ∈ edges (x :: l) := mem_edges_last (by rw [← e]; simp)
            exact h _ this
          | cons y' l2 =>
            have h1 := ih (l1 ++ [y]) (by simpa using e) y' (by simp)
            have : (y, y') ∈ edges (x :: l) := mem_edges_of_infix ⟨l1, l2, by simpa using e⟩
            exact le_trans (h _ this) h1
        rcases List.mem_cons.mp hw with rfl | hw
        · exact hy
        · exact ih (l1 ++ [y]) (by simpa using e) w hw
    exact this (x :: l) [] rfl
  have le : ∀ u ∈ v, ∀ w ∈ v, g w ≤ g u := by
    intro u hu w hw
    obtain ⟨k, rest, hk⟩ := exists_rotate hu
    refine key u rest (fun e he => h e ?_) w (by rw [← hk]; exact List.mem_rotate.mpr hw)
    rw [← hk, mem_edges_rotate] at he; exact he
  exact fun u hu w hw => le_antisymm (le w hw u hu) (le u hu w hw)

/-- in a list on a line, going from a point to another passes all abscissas -/
theorem pass {g : Pt K → K} {t : K} (l : List (Pt K)) : ∀ x, g x ≤ t → (∃ w ∈ l, t ≤ g w) →
    ∃ u w, [u, w] <:+: x :: l ∧ g u ≤ t ∧ t ≤ g w := by
  induction l with
  | nil => intro x _ ⟨w, hw, _⟩; simp at hw
  | cons y l ih =>
    intro x hx ⟨w, hw, hwt⟩
    rcases le_total t (g y) with h | h
    · exact ⟨x, y, ⟨[], l, by simp⟩, hx, h⟩
    · rcases List.mem_cons.mp hw with rfl | hw
      · exact ⟨x, w, ⟨[], l, by simp⟩, hx, hwt⟩
      · obtain ⟨u, w', h1, h2⟩ := ih y h ⟨w, hw, hwt⟩
        exact ⟨u, w', h1.trans ⟨[x], [], by simp⟩, h2⟩

/-- the hull of a flat polygon is the union of its edges -/
theorem flat_on {v : List (Pt K)} (hn : v.Nodup) (hf : ¬ Solid v) {q : Pt K} (hq : q ∈ Hull v) : ∃ e ∈ edges v, OnSeg e.1 e.2 q := by
  unfold Solid at hf
  push Not at hf
  match v, hn, hf, hq with
  | [], _, _, hq => simp [Hull] at hq
  | [x], _, _, hq =>
    have : q = x := by simpa [Hull] using hq
    exact ⟨(x, x), by simp [edges], by rw [this]; exact OnSeg.left x x⟩
  | a :: b :: l, hn, hf, hq =>
    have hab : a ≠ b := by
      intro e; subst e; simp at hn
    have hl : ∀ u ∈ a :: b :: l, cr a b u = 0 := fun u hu => hf a (by simp) b (by simp) u hu
    have hqz : cr a b q = 0 := by
      have h1 := Hull.left (σ := 1) (fun u hu => by rw [hl u hu, mul_zero]) hq
      have h2 := Hull.left (σ := -1) (fun u hu => by rw [hl u hu, mul_zero]) hq
      linarith
    have hlow : ∃ u ∈ a :: b :: l, dot a b u ≤ dot a b q := by
      by_contra hcon
      push Not at hcon
      -- all vertices are strictly beyond: take the least of them
      obtain ⟨t, ht1, ht2⟩ : ∃ t, dot a b q < t ∧ ∀ u ∈ a :: b :: l, t ≤ dot a b u := by
        have : ∀ l : List (Pt K), (∀ u ∈ l, dot a b q < dot a b u) → ∃ t, dot a b q < t ∧ ∀ u ∈ l, t ≤ dot a b u := by
          intro l
          induction l with
          | nil => intro _; exact ⟨dot a b q + 1, by linarith, by simp⟩
          | cons x l ih =>
            intro h
            obtain ⟨t, h1, h2⟩ := ih fun u hu => h u (List.mem_cons_of_mem _ hu)
            refine ⟨min t (dot a b x), lt_min h1 (h x (by simp)), fun u hu => ?_⟩
            rcases List.mem_cons.mp hu with rfl | hu
            · exact min_le_right _ _
            · exact le_trans (min_le_left _ _) (h2 u hu)
        exact this _ hcon
      have := Hull.nonneg (α := b.1 - a.1) (β := b.2 - a.2) (γ := - ((b.1 - a.1) * a.1 + (b.2 - a.2) * a.2) - t)
        (fun u hu => by have := ht2 u hu; unfold dot at this; linarith) hq
      unfold dot at ht1
      linarith
    have hhigh : ∃ u ∈ a :: b :: l, dot a b q ≤ dot a b u := by
      by_contra hcon
      push Not at hcon
      obtain ⟨t, ht1, ht2⟩ : ∃ t, t < dot a b q ∧ ∀ u ∈ a :: b :: l, dot a b u ≤ t := by
        have : ∀ l : List (Pt K), (∀ u ∈ l, dot a b u < dot a b q) → ∃ t, t < dot a b q ∧ ∀ u ∈ l, dot a b u ≤ t := by
          intro l
          induction l with
          | nil => intro _; exact ⟨dot a b q - 1, by linarith, by simp⟩
          | cons x l ih =>
            intro h
            obtain ⟨t, h1, h2⟩ := ih fun u hu => h u (List.mem_cons_of_mem _ hu)
            refine ⟨max t (dot a b x), max_lt h1 (h x (by simp)), fun u hu => ?_⟩
            rcases List.mem_cons.mp hu with rfl | hu
            · exact le_max_right _ _
            · exact le_trans (h2 u hu) (le_max_left _ _)
        exact this _ hcon
      have := Hull.nonneg (α := - (b.1 - a.1)) (β := - (b.2 - a.2)) (γ := ((b.1 - a.1) * a.1 + (b.2 - a.2) * a.2) + t)
        (fun u hu => by have := ht2 u hu; unfold dot at this; linarith) hq
      unfold dot at ht1
      linarith
    obtain ⟨u, hu, hu2⟩ := hlow
    obtain ⟨w, hw, hw2⟩ := hhigh
    obtain ⟨k, rest, hk⟩ := exists_rotate hu
    have hw' : w ∈ u :: rest := by rw [← hk]; exact List.mem_rotate.mpr hw
    rcases List.mem_cons.mp hw' with rfl | hw'
    · -- same abscissa
      have : q = w := eq_of_dot hab hqz (hl w hw) (by linarith)
      have hE : ∃ y, (w, y) ∈ edges (a :: b :: l) := by
        obtain ⟨i, hi, hiw⟩ := List.mem_iff_getElem.mp hw
        exact ⟨_, mem_edges.mpr ⟨i, hi, hiw.symm, rfl⟩⟩
      obtain ⟨y, hy⟩ := hE
      exact ⟨(w, y), hy, by rw [this]; exact OnSeg.left w y⟩
    · obtain ⟨x, y, h1, h2, h3⟩ := pass (g := dot a b) rest u hu2 ⟨w, hw', hw2⟩
      have hmem : ∀ p ∈ u :: rest, p ∈ a :: b :: l := fun p hp => by
        rw [← hk] at hp; exact List.mem_rotate.mp hp
      have he : (x, y) ∈ edges (a :: b :: l) := by
        rw [← mem_edges_rotate k, hk]; exact mem_edges_of_infix h1
      exact ⟨(x, y), he, onSeg_of_dot hab (hl x (hmem x (h1.subset (by simp)))) (hl y (hmem y (h1.subset (by simp)))) hqz h2 h3⟩

/-- from a point of the polygon, in any direction, an edge is reached -/
theorem exit {σ : K} (hσ : σ ≠ 0) {v : List (Pt K)} (ht : Turns σ v) (hn : v.Nodup) {q : Pt K} (hq : q ∈ Hull v) (dx dy : K)
    (hd : dx ≠ 0 ∨ dy ≠ 0) : ∃ t : K, 0 ≤ t ∧ ∃ e ∈ edges v, OnSeg e.1 e.2 (q.1 + t * dx, q.2 + t * dy) := by
  by_cases hs : Solid v
  · have hc : ∀ e ∈ edges v, 0 ≤ σ * cr e.1 e.2 q := fun e he => Hull.left (ht.left he) hq
    have hneg : ∃ e ∈ edges v, σ * ((e.2.1 - e.1.1) * dy - (e.2.2 - e.1.2) * dx) < 0 := by
      by_contra hcon
      push Not at hcon
      have hg := const_of_edges (v := v) (fun u => σ * (u.1 * dy - u.2 * dx)) (fun e he => by
        have := hcon e he
        linarith)
      obtain ⟨a, ha, b, hb, c, hcm, hne⟩ := hs
      have h1 := mul_left_cancel₀ hσ (hg a ha b hb)
      have h2 := mul_left_cancel₀ hσ (hg a ha c hcm)
      apply hne
      unfold cr
      rcases hd with hd | hd
      · apply mul_left_cancel₀ hd
        linear_combination (b.1 - a.1) * h2 - (c.1 - a.1) * h1
      · apply mul_left_cancel₀ hd
        linear_combination (b.2 - a.2) * h2 - (c.2 - a.2) * h1
    obtain ⟨t, t0, h1, e, he, h2, h3⟩ := first_zero (edges v) (fun e => σ * cr e.1 e.2 q)
      (fun e => σ * ((e.2.1 - e.1.1) * dy - (e.2.2 - e.1.2) * dx)) hc hneg
    have lin : ∀ e : Edge K, σ * cr e.1 e.2 (q.1 + t * dx, q.2 + t * dy) =
        σ * cr e.1 e.2 q + t * (σ * ((e.2.1 - e.1.1) * dy - (e.2.2 - e.1.2) * dx)) := fun e => by unfold cr; ring
    have hee : e.1 ≠ e.2 := by
      intro h; rw [h] at h2; simp at h2
    obtain ⟨z, hz, hzc⟩ := hs.off hee
    have hzp : 0 < σ * cr e.1 e.2 z := lt_of_le_of_ne (ht.left he z hz) (mul_ne_zero hσ hzc).symm
    have hr0 : cr e.1 e.2 (q.1 + t * dx, q.2 + t * dy) = 0 := by
      have := lin e
      rw [h3] at this
      exact (mul_eq_zero.mp this).resolve_left hσ
    exact ⟨t, t0, edge_on ht hn (a := e.1) (b := e.2) he hz hzp (fun f hf => by rw [lin]; exact h1 f hf) (ht.left he) hr0⟩
  · obtain ⟨e, he, h⟩ := flat_on hn hs hq
    exact ⟨0, le_rfl, e, he, by simpa using h⟩

/-- two edges that share a point that is not on the other side of the polygon are equal or adjacent -/
theorem unique {σ : K} {v : List (Pt K)} (ht : Turns σ v) (hn : v.Nodup) (hs : Solid v) (hσ : σ ≠ 0) {a b c d r : Pt K}
    (he : (a, b) ∈ edges v) (hf : (c, d) ∈ edges v) (hab : a ≠ b) (hcd : c ≠ d) (h1 : OnSeg a b r) (h2 : OnSeg c d r) :
    (a = c ∧ b = d) ∨ (b = r ∧ r = c) ∨ (d = r ∧ r = a) := by
  -- order of the vertices on the line of an edge
  have gap : ∀ {a b : Pt K}, (a, b) ∈ edges v → a ≠ b → ∀ u ∈ v, cr a b u = 0 → dot a b u ≤ dot a b a ∨ dot a b b ≤ dot a b u := by
    intro a b he hab u hu hu0
    obtain ⟨z, hz, hzc⟩ := hs.off hab
    have hzp : 0 < σ * cr a b z := lt_of_le_of_ne (ht.left he z hz) (mul_ne_zero hσ hzc).symm
    obtain ⟨k, rest, hk⟩ := exists_rotate hz
    have ht' := ht.rotate k
    have hn' : (v.rotate k).Nodup := List.nodup_rotate.mpr hn
    rw [hk] at ht' hn'
    have haz : a ≠ z := by
      intro e; subst e
      rw [cr_swap, cr_left, neg_zero] at hzc; exact hzc rfl
    have hbz : b ≠ z := by
      intro e; subst e
      rw [cr_self] at hzc; exact hzc rfl
    have huz : u ≠ z := by
      intro e; subst e; exact hzc hu0
    have hin : [a, b] <:+: rest := by
      rcases edge_cases (z := z) (l := rest) (by rw [← hk, mem_edges_rotate]; exact he) with h | h
      · exact infix_cases h haz
      · exact absurd h hbz
    have hur : u ∈ rest := by
      have : u ∈ z :: rest := by rw [← hk]; exact List.mem_rotate.mpr hu
      exact (List.mem_cons.mp this).resolve_left huz
    have hm := mono_line ht' hn' hab hzp
    have ca : cr a b a = 0 := by rw [cr_swap, cr_left, neg_zero]
    obtain ⟨s, t, e⟩ := hin
    rw [← e] at hur hm
    simp only [List.append_assoc, List.mem_append, List.mem_cons, List.not_mem_nil, or_false] at hur
    rw [List.pairwise_iff_forall_sublist] at hm
    rcases hur with h | (h | h) | h
    · left
      refine (hm (a := u) (b := a) ?_ hu0 ca).le
      have : ([u] ++ [a] ++ []).Sublist (s ++ [a] ++ (b :: t)) :=
        ((List.singleton_sublist.mpr h).append (List.Sublist.refl _)).append (List.nil_sublist _)
      simpa using this
    · left; rw [h]
    · right; rw [h]
    · right
      refine (hm (a := b) (b := u) ?_ (cr_self a b) hu0).le
      have : ([] ++ [b] ++ [u]).Sublist ((s ++ [a]) ++ [b] ++ t) :=
        ((List.nil_sublist _).append (List.Sublist.refl _)).append (List.singleton_sublist.mpr h)
      simpa using this
  have mem : ∀ {a b : Pt K}, (a, b) ∈ edges v → a ∈ v ∧ b ∈ v := by
    intro a b he
    rw [mem_edges] at he
    obtain ⟨i, hi, k1, k2⟩ := he
    simp only at k1 k2
    exact ⟨by rw [k1]; exact List.getElem_mem _, by rw [k2]; exact List.getElem_mem _⟩
  have fst_inj : ∀ {a b d : Pt K}, (a, b) ∈ edges v → (a, d) ∈ edges v → b = d := by
    intro a b d k1 k2
    rw [mem_edges] at k1 k2
    obtain ⟨i, hi, i1, i2⟩ := k1
    obtain ⟨j, hj, j1, j2⟩ := k2
    dsimp only at i1 i2 j1 j2
    have : i = j := (List.Nodup.getElem_inj_iff hn).mp (i1.symm.trans j1)
    subst this
    rw [i2, j2]
  have snd_inj : ∀ {a b c : Pt K}, (a, b) ∈ edges v → (c, b) ∈ edges v → a = c := by
    intro a b c k1 k2
    rw [mem_edges] at k1 k2
    obtain ⟨i, hi, i1, i2⟩ := k1
    obtain ⟨j, hj, j1, j2⟩ := k2
    dsimp only at i1 i2 j1 j2
    have : (i + 1) % v.length = (j + 1) % v.length := (List.Nodup.getElem_inj_iff hn).mp (i2.symm.trans j2)
    have hij : i = j := by
      rcases Nat.lt_or_ge (i + 1) v.length with hi' | hi' <;> rcases Nat.lt_or_ge (j + 1) v.length with hj' | hj'
      · rw [Nat.mod_eq_of_lt hi', Nat.mod_eq_of_lt hj'] at this; omega
      · have e : j + 1 = v.length := by omega
        rw [e, Nat.mod_self, Nat.mod_eq_of_lt hi'] at this; omega
      · have e : i + 1 = v.length := by omega
        rw [e, Nat.mod_self, Nat.mod_eq_of_lt hj'] at this; omega
      · omega
    subst hij
    rw [i1, j1]
  have ca : ∀ a b : Pt K, cr a b a = 0 := fun a b => by rw [cr_swap, cr_left, neg_zero]
  -- a vertex on an edge is one of its ends
  have vert_on : ∀ {a b u : Pt K}, (a, b) ∈ edges v → a ≠ b → u ∈ v → OnSeg a b u → u = a ∨ u = b := by
    intro a b u he hab hu hs
    have d0 : dot a b a < dot a b b := by
      have := nsq_pos hab
      unfold dot; unfold nsq at this; linarith
    rcases hs.dot_between (a := a) (b := b) with ⟨k1, k2⟩ | ⟨k1, k2⟩
    · rcases gap he hab u hu hs.cr_eq with k | k
      · exact .inl (eq_of_dot hab hs.cr_eq (ca a b) (le_antisymm k k1))
      · exact .inr (eq_of_dot hab hs.cr_eq (cr_self a b) (le_antisymm k2 k))
    · linarith
  by_cases hr : r ∈ v
  · rcases vert_on he hab hr h1 with rfl | rfl <;> rcases vert_on hf hcd hr h2 with rfl | rfl
    · exact .inl ⟨rfl, fst_inj he hf⟩
    · exact .inr (.inr ⟨rfl, rfl⟩)
    · exact .inr (.inl ⟨rfl, rfl⟩)
    · exact .inl ⟨snd_inj he hf, rfl⟩
  · left
    obtain ⟨mc, md⟩ := mem hf
    obtain ⟨ma, mb⟩ := mem he
    -- c and d are on the line of (a, b)
    obtain ⟨s, s0, s1, s2, s3⟩ := h2
    have hs0 : 0 < s := lt_of_le_of_ne s0 fun e => hr (by
      have : r = c := Prod.ext (by rw [s2, ← e]; ring) (by rw [s3, ← e]; ring)
      rw [this]; exact mc)
    have hs1 : s < 1 := lt_of_le_of_ne s1 fun e => hr (by
      have : r = d := Prod.ext (by rw [s2, e]; ring) (by rw [s3, e]; ring)
      rw [this]; exact md)
    have e0 : (1 - s) * (σ * cr a b c) + s * (σ * cr a b d) = 0 := by
      have := h1.cr_eq
      have e' : cr a b r = (1 - s) * cr a b c + s * cr a b d := by unfold cr; rw [s2, s3]; ring
      linear_combination σ * this - σ * e'
    have kc := ht.left he c mc
    have kd := ht.left he d md
    dsimp only at kc kd
    have hc0 : cr a b c = 0 := by
      have h : σ * cr a b c = 0 := by nlinarith [mul_nonneg s0 kd, mul_nonneg (sub_nonneg.mpr s1) kc]
      exact (mul_eq_zero.mp h).resolve_left hσ
    have hd0 : cr a b d = 0 := by
      have h : σ * cr a b d = 0 := by nlinarith [mul_nonneg s0 kd, mul_nonneg (sub_nonneg.mpr s1) kc]
      exact (mul_eq_zero.mp h).resolve_left hσ
    have h2 : OnSeg c d r := ⟨s, s0, s1, s2, s3⟩
    have gc := gap he hab c mc hc0
    have gd := gap he hab d md hd0
    have dab : dot a b a < dot a b b := by
      have := nsq_pos hab
      unfold dot; unfold nsq at this; linarith
    have br := h1.dot_between (a := a) (b := b)
    have rne : ∀ u ∈ v, cr a b u = 0 → dot a b u ≠ dot a b r := fun u hu hu0 e => hr (by
      rw [← eq_of_dot hab hu0 h1.cr_eq e]; exact hu)
    -- the points of the edge (c, d) surround the edge (a, b)
    have key : (dot a b c ≤ dot a b a ∧ dot a b b ≤ dot a b d) ∨ (dot a b d ≤ dot a b a ∧ dot a b b ≤ dot a b c) := by
      have k1 := rne c mc hc0
      have k2 := rne d md hd0
      have k3 := rne a ma (ca a b)
      have k4 := rne b mb (cr_self a b)
      rcases br with ⟨b1, b2⟩ | ⟨b1, b2⟩
      · rcases h2.dot_between (a := a) (b := b) with ⟨c1, c2⟩ | ⟨c1, c2⟩
        · left
          constructor
          · rcases gc with g | g
            · exact g
            · exact absurd (le_antisymm c1 (le_trans b2 g)) k1
          · rcases gd with g | g
            · exact absurd (le_antisymm (le_trans g b1) c2) k2
            · exact g
        · right
          constructor
          · rcases gd with g | g
            · exact g
            · exact absurd (le_antisymm c1 (le_trans b2 g)) k2
          · rcases gc with g | g
            · exact absurd (le_antisymm (le_trans g b1) c2) k1
            · exact g
      · linarith
    -- the order of the line is the order of the list
    have ac : a = c ∨ a = d := vert_on hf hcd ma (by
      rcases key with ⟨k1, k2⟩ | ⟨k1, k2⟩
      · exact onSeg_of_dot hab hc0 hd0 (ca a b) k1 (le_trans dab.le k2)
      · exact (onSeg_of_dot hab hd0 hc0 (ca a b) k1 (le_trans dab.le k2)).symm)
    have bc : b = c ∨ b = d := vert_on hf hcd mb (by
      rcases key with ⟨k1, k2⟩ | ⟨k1, k2⟩
      · exact onSeg_of_dot hab hc0 hd0 (cr_self a b) (le_trans k1 dab.le) k2
      · exact (onSeg_of_dot hab hd0 hc0 (cr_self a b) (le_trans k1 dab.le) k2).symm)
    rcases ac with rfl | rfl
    · exact ⟨rfl, fst_inj he hf⟩
    · rcases bc with rfl | rfl
      · -- (a, b) and (b, a) are both edges: the third vertex has no room
        exfalso
        obtain ⟨z, hz, hzc⟩ := hs.off hab
        have k1 := ht.left he z hz
        have k2 := ht.left hf z hz
        dsimp only at k1 k2
        have : cr b a z = - cr a b z := by unfold cr; ring
        rw [this] at k2
        have : σ * cr a b z = 0 := by linarith
        exact hzc ((mul_eq_zero.mp this).resolve_left hσ)
      · exact absurd rfl hab

end Codac.Poly
