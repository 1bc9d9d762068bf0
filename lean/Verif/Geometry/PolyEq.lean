import Verif.Geometry.Inter
import Verif.Geometry.OpsModel
import Mathlib.Data.List.Rotate
import Mathlib.Data.List.Nodup

/-!
# Comparison and area of polygons: proofs
-/

set_option linter.unusedSectionVars false

namespace Codac.Poly
open Codac.Graham

variable {K : Type*} [Field K] [LinearOrder K] [IsStrictOrderedRing K]

/-- the elements of a list, from the one of index `i` backwards, are the ones of a rotation of the reversed list -/
theorem reverse_rotate_getElem? (w : List (Pt K)) {i j : Nat} (hj : j < w.length) :
    ((w.rotate (i + 1)).reverse)[j]? = w[(i + w.length - j) % w.length]? := by
  rw [List.getElem?_reverse (by rwa [List.length_rotate]), List.length_rotate, List.getElem?_rotate (by omega)]
  congr 1
  rw [show w.length - 1 - j + (i + 1) = i + w.length - j by omega]

theorem isRotated_reverse_rotate (w : List (Pt K)) (k : Nat) : (w.rotate k).reverse.reverse ~r w := by
  rw [List.reverse_reverse]
  exact List.IsRotated.symm ⟨k, rfl⟩

/-- two polygons with distinct vertices are equal when their vertices are the same ones up to a circular shift and to the orientation -/
theorem polyEq_iff {v w : List (Pt K)} (hn : v.Nodup) : polyEq v w = true ↔ v ~r w ∨ v.reverse ~r w := by
  constructor
  · intro h
    unfold polyEq at h
    dsimp only at h
    by_cases hl : v.length = w.length
    case neg => rw [if_pos hl] at h; cases h
    rw [if_neg (by simpa using hl)] at h
    by_cases h0 : v = []
    · subst h0
      have : w = [] := List.eq_nil_of_length_eq_zero hl.symm
      subst this; exact .inl (List.IsRotated.refl _)
    have hpos : 0 < v.length := List.length_pos_iff.mpr h0
    rw [List.all_eq_true] at h
    generalize hi : (w.findIdx fun p => v[0]? = some p) = i at h
    generalize (if 1 < v.length then decide (v[1]? = w[(i + 1) % v.length]?) else true) = fwd at h
    have h' : ∀ j < v.length, v[j]? = w[(if fwd = true then i + j + v.length else i + v.length - j) % v.length]? := fun j hj => by
      simpa using h j (List.mem_range.mpr hj)
    have hiw : i < w.length := by
      by_contra hc
      have hle : i ≤ w.length := by rw [← hi]; exact List.findIdx_le_length
      have e : i = w.length := by omega
      have := h' 0 hpos
      have key : (if fwd = true then i + 0 + v.length else i + v.length - 0) % v.length = 0 := by
        rw [e, ← hl]; split_ifs <;> simp
      rw [key] at this
      have hw0 : 0 < w.length := by omega
      rw [List.getElem?_eq_getElem hw0] at this
      have hno := List.findIdx_eq_length.mp (hi.trans e) _ (List.getElem_mem hw0)
      simp [this] at hno
    cases fwd with
    | true =>
      left
      refine List.IsRotated.symm ⟨i, ?_⟩
      apply List.ext_getElem?
      intro j
      by_cases hj : j < v.length
      · rw [List.getElem?_rotate (by omega), h' j hj, if_pos rfl, ← hl, Nat.add_mod_right, Nat.add_comm]
      · rw [List.getElem?_eq_none (by rw [List.length_rotate]; omega), List.getElem?_eq_none (by omega)]
    | false =>
      right
      have : v = (w.rotate (i + 1)).reverse := by
        apply List.ext_getElem?
        intro j
        by_cases hj : j < v.length
        · rw [reverse_rotate_getElem? w (by omega), h' j hj, ← hl]; rfl
        · rw [List.getElem?_eq_none (by omega), List.getElem?_eq_none (by rw [List.length_reverse, List.length_rotate]; omega)]
      rw [this]
      exact isRotated_reverse_rotate w (i + 1)
  · intro h
    have hl : v.length = w.length := by
      rcases h with h | h
      · exact h.perm.length_eq
      · rw [← h.perm.length_eq, List.length_reverse]
    have hwn : w.Nodup := by
      rcases h with h | h
      · exact h.nodup_iff.mp hn
      · exact h.nodup_iff.mp (List.nodup_reverse.mpr hn)
    unfold polyEq
    dsimp only
    rw [if_neg (by simpa using hl)]
    by_cases h0 : v = []
    · subst h0; simp
    have hpos : 0 < v.length := List.length_pos_iff.mpr h0
    have idx : ∀ k, k < w.length → w[k]? = v[0]? → (w.findIdx fun p => v[0]? = some p) = k := by
      intro k hk e
      rw [List.getElem?_eq_getElem hk] at e
      rw [List.findIdx_eq hk]
      refine ⟨by simpa using e.symm, fun j hj => ?_⟩
      simp only [decide_eq_false_iff_not]
      intro he
      rw [← e] at he
      exact absurd (hwn.getElem_inj_iff.mp (Option.some.inj he)) (by omega)
    have getinj : ∀ a b, a < w.length → b < w.length → w[a]? = w[b]? → a = b := by
      intro a b ha hb e
      rw [List.getElem?_eq_getElem ha, List.getElem?_eq_getElem hb] at e
      exact hwn.getElem_inj_iff.mp (Option.some.inj e)
    rw [List.all_eq_true]
    rcases h with h | h
    · obtain ⟨k, hk⟩ := h.symm
      rw [← List.rotate_mod] at hk
      have hkw : k % w.length < w.length := Nat.mod_lt _ (by omega)
      generalize k % w.length = k at hk hkw
      have hv : ∀ j < v.length, v[j]? = w[(k + j) % v.length]? := fun j hj => by
        rw [← hk, List.getElem?_rotate (by omega), List.length_rotate, Nat.add_comm]
      rw [idx k hkw (by rw [hv 0 hpos, Nat.add_zero, Nat.mod_eq_of_lt (by omega)])]
      intro j hj
      have hj := List.mem_range.mp hj
      rw [decide_eq_true_eq, hv j hj]
      have : (if 1 < v.length then decide (v[1]? = w[(k + 1) % v.length]?) else true) = true := by
        split_ifs with h1
        · rw [decide_eq_true_eq]; exact hv 1 h1
        · rfl
      rw [this, if_pos rfl, Nat.add_mod_right]
    · obtain ⟨k, hk⟩ := h.symm
      -- w.rotate k = v.reverse
      have hk' : v = (w.rotate k).reverse := by rw [hk, List.reverse_reverse]
      obtain ⟨i, hi, hik⟩ : ∃ i, i < w.length ∧ w.rotate k = w.rotate (i + 1) := by
        refine ⟨(k + w.length - 1) % w.length, Nat.mod_lt _ (by omega), ?_⟩
        rw [← List.rotate_mod, ← List.rotate_mod w ((k + w.length - 1) % w.length + 1)]
        congr 1
        rw [Nat.mod_add_mod, show k + w.length - 1 + 1 = k + w.length by omega, Nat.add_mod_right]
      rw [hik] at hk'
      have hv : ∀ j < v.length, v[j]? = w[(i + v.length - j) % v.length]? := fun j hj => by
        rw [hl, ← reverse_rotate_getElem? w (by omega), ← hk']
      rw [idx i hi (by rw [hv 0 hpos, Nat.sub_zero, Nat.add_mod_right, Nat.mod_eq_of_lt (by omega)])]
      intro j hj
      have hj := List.mem_range.mp hj
      rw [decide_eq_true_eq]
      by_cases hf : (if 1 < v.length then decide (v[1]? = w[(i + 1) % v.length]?) else true) = true
      · rw [if_pos hf, hv j hj]
        split_ifs at hf with h1
        · rw [decide_eq_true_eq, hv 1 h1] at hf
          have := getinj _ _ (by rw [← hl]; exact Nat.mod_lt _ hpos) (by rw [← hl]; exact Nat.mod_lt _ hpos) hf
          have h2 : v.length = 2 := by
            rcases Nat.lt_or_ge (i + 1) v.length with h3 | h3
            · rw [Nat.mod_eq_of_lt h3] at this
              rcases Nat.eq_zero_or_pos i with h4 | h4
              · subst h4
                rw [Nat.mod_eq_of_lt (by omega)] at this; omega
              · rw [show i + v.length - 1 = (i - 1) + v.length by omega, Nat.add_mod_right, Nat.mod_eq_of_lt (by omega)] at this
                omega
            · have h4 : i + 1 = v.length := by omega
              rw [h4, Nat.mod_self, show i + v.length - 1 = (i - 1) + v.length by omega, Nat.add_mod_right, Nat.mod_eq_of_lt (by omega)] at this
              omega
          rw [h2] at hj ⊢
          congr 1
          omega
        · have : j = 0 := by omega
          subst this; simp
      · rw [if_neg hf, hv j hj]

/-- equal polygons are the same set -/
theorem polyEq_hull {v w : List (Pt K)} (hn : v.Nodup) (h : polyEq v w = true) : Hull v = Hull w := by
  unfold Hull
  congr 1
  ext p
  rcases (polyEq_iff hn).mp h with h | h
  · exact h.perm.mem_iff
  · have := h.perm.mem_iff (a := p)
    rw [List.mem_reverse] at this
    exact this

/-! ### Area -/

theorem area_foldl (l : List (Edge K)) (c : K) : l.foldl (fun a e => a + (e.1.1 * e.2.2 - e.2.1 * e.1.2)) c =
    c + (l.map fun e => e.1.1 * e.2.2 - e.2.1 * e.1.2).sum := by
  induction l generalizing c with
  | nil => simp
  | cons e l ih => rw [List.foldl_cons, ih, List.map_cons, List.sum_cons]; ring

/-- twice the area is the sum of the cross products of the edges with respect to any point -/
theorem area_eq (v : List (Pt K)) (o : Pt K) : 2 * area v = ((edges v).map fun e => cr o e.1 e.2).sum := by
  have h1 : ∀ g : Pt K → K, ((edges v).map fun e => g e.2 - g e.1).sum = 0 := by
    intro g
    have e1 : ((edges v).map fun e => g e.1) = v.map g := by
      unfold edges
      have : (v.zip (v.tail ++ v.take 1)).map Prod.fst = v := by
        rw [List.map_fst_zip]
        cases v <;> simp
      conv_rhs => rw [← this]
      rw [List.map_map]; rfl
    have e2 : ((edges v).map fun e => g e.2) = (v.tail ++ v.take 1).map g := by
      unfold edges
      have : (v.zip (v.tail ++ v.take 1)).map Prod.snd = v.tail ++ v.take 1 := by
        rw [List.map_snd_zip]
        cases v <;> simp
      conv_rhs => rw [← this]
      rw [List.map_map]; rfl
    rw [show (fun e : Edge K => g e.2 - g e.1) = fun e => g e.2 + -g e.1 from funext fun e => by ring, List.sum_map_add, e2,
      show (fun e : Edge K => -g e.1) = fun e => (-1) * g e.1 from funext fun e => by ring, List.sum_map_mul_left, e1]
    cases v with
    | nil => simp
    | cons a l => simp; ring
  have h2 := h1 fun p => o.2 * p.1 - o.1 * p.2
  unfold area
  rw [area_foldl, zero_add, ← mul_assoc, mul_one_div_cancel two_ne_zero, one_mul,
    show (fun e : Edge K => cr o e.1 e.2) = fun e => (e.1.1 * e.2.2 - e.2.1 * e.1.2) +
      (o.2 * e.2.1 - o.1 * e.2.2 - (o.2 * e.1.1 - o.1 * e.1.2)) from funext fun e => by unfold cr; ring, List.sum_map_add, h2, add_zero]

theorem area_nonneg {σ : K} {v : List (Pt K)} (ht : Turns σ v) : 0 ≤ σ * area v := by
  by_cases hv : v = []
  · subst hv; simp [area, edges]
  obtain ⟨o, ho⟩ := List.exists_mem_of_ne_nil v hv
  have h := area_eq v o
  have : 0 ≤ ((edges v).map fun e => σ * cr o e.1 e.2).sum := by
    apply List.sum_nonneg
    intro x hx
    obtain ⟨e, he, rfl⟩ := List.mem_map.mp hx
    have := ht.left he o ho
    have k : cr o e.1 e.2 = cr e.1 e.2 o := by unfold cr; ring
    rw [k]; exact this
  rw [List.sum_map_mul_left, ← h] at this
  linarith

theorem sum_nonneg_zero (l : List (Edge K)) (f : Edge K → K) (h : ∀ e ∈ l, 0 ≤ f e) (h0 : (l.map f).sum = 0) : ∀ e ∈ l, f e = 0 := by
  induction l with
  | nil => intro e he; simp at he
  | cons a l ih =>
    rw [List.map_cons, List.sum_cons] at h0
    have h1 := h a (by simp)
    have h2 : 0 ≤ (l.map f).sum := List.sum_nonneg fun x hx => by
      obtain ⟨e, he, rfl⟩ := List.mem_map.mp hx
      exact h e (by simp [he])
    intro e he
    rcases List.mem_cons.mp he with rfl | he
    · linarith
    · exact ih (fun e he => h e (by simp [he])) (by linarith) e he

/-- the area is zero only for aligned vertices -/
theorem area_zero {σ : K} (hσ : σ ≠ 0) {v : List (Pt K)} (ht : Turns σ v) (hn : v.Nodup) : area v = 0 ↔ ¬ Solid v := by
  constructor
  · intro h hs
    have hv : v ≠ [] := by obtain ⟨a, ha, _⟩ := hs; exact List.ne_nil_of_mem ha
    have hne : edges v ≠ [] := by
      intro h
      have := edges_length v
      rw [h] at this
      exact hv (List.eq_nil_of_length_eq_zero this.symm)
    obtain ⟨e, he⟩ := List.exists_mem_of_ne_nil _ hne
    obtain ⟨o, ho, hc⟩ := hs.off (edge_ne hn hs he)
    have h2 := area_eq v o
    rw [h, mul_zero] at h2
    have := sum_nonneg_zero (edges v) (fun e => σ * cr o e.1 e.2) (fun e he => by
      have k : cr o e.1 e.2 = cr e.1 e.2 o := by unfold cr; ring
      rw [k]; exact ht.left he o ho) (by rw [List.sum_map_mul_left, ← h2, mul_zero]) e he
    have k : cr o e.1 e.2 = cr e.1 e.2 o := by unfold cr; ring
    rw [k] at this
    exact hc ((mul_eq_zero.mp this).resolve_left hσ)
  · intro hs
    by_cases hv : v = []
    · subst hv; simp [area, edges]
    obtain ⟨o, ho⟩ := List.exists_mem_of_ne_nil v hv
    unfold Solid at hs
    push Not at hs
    have h2 := area_eq v o
    have : ((edges v).map fun e => cr o e.1 e.2).sum = 0 := by
      apply List.sum_eq_zero
      intro x hx
      obtain ⟨e, he, rfl⟩ := List.mem_map.mp hx
      exact hs o ho _ (mem_of_edge he).1 _ (mem_of_edge he).2
    rw [this] at h2
    linarith

end Codac.Poly
