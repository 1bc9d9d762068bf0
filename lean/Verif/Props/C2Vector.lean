import Verif.C2.Vector
import Verif.Props.C2Matrix

/-!
# C155: the vectors of intervals of codac2; C156: the matrices of the first library
-/

set_option linter.unusedSectionVars false

namespace Codac.Props
open Codac Codac.C2 Codac.C2.Vec

section any
variable {α : Type*}

theorem vec_write_length : ∀ {a : List α} {k : Nat} {x : List α}, (write a k x).length = x.length
  | [], _, _ => rfl
  | v :: a, k, x => by rw [write, vec_write_length (a := a), List.length_set]

theorem vec_write_get : ∀ {a : List α} {k : Nat} {x : List α}, k + a.length ≤ x.length → ∀ i,
    (write a k x)[i]? = if k ≤ i ∧ i < k + a.length then a[i - k]? else x[i]?
  | [], k, x, _, i => by
    rw [write, if_neg]
    simp
  | v :: a, k, x, h, i => by
    rw [List.length_cons] at h
    rw [write, vec_write_get (a := a) (by rw [List.length_set]; omega), List.getElem?_set, List.length_cons]
    by_cases h1 : k = i
    · subst h1
      rw [if_neg (by omega), if_pos rfl, if_pos (by omega), if_pos (by omega), Nat.sub_self]
      rfl
    · by_cases h2 : k + 1 ≤ i ∧ i < k + 1 + a.length
      · rw [if_pos h2, if_pos (by omega), show i - k = (i - (k + 1)) + 1 by omega, List.getElem?_cons_succ]
      · rw [if_neg h2, if_neg h1, if_neg (by omega)]

theorem vec_write_eq {a : List α} {k : Nat} {x : List α} (h : k + a.length ≤ x.length) : write a k x = x.take k ++ a ++ x.drop (k + a.length) := by
  apply List.ext_getElem?
  intro i
  rw [vec_write_get h, List.append_assoc, List.getElem?_append, List.length_take, Nat.min_eq_left (by omega), List.getElem?_append, List.getElem?_take, List.getElem?_drop]
  by_cases h1 : i < k
  · rw [if_neg (by omega), if_pos h1, if_pos h1]
  · rw [if_neg h1]
    by_cases h2 : i < k + a.length
    · rw [if_pos (by omega), if_pos (by omega)]
    · rw [if_neg (by omega), if_neg (by omega)]
      congr 1
      omega

theorem vec_comma : ∀ {l : List (List α)} {k : Nat} {x : List α}, k + l.flatten.length = x.length → comma l k x = some (x.take k ++ l.flatten)
  | [], k, x, h => by
    simp only [List.flatten_nil, List.length_nil, Nat.add_zero] at h
    rw [comma, if_pos h]
    simp [h]
  | a :: l, k, x, h => by
    rw [List.flatten_cons, List.length_append] at h
    rw [comma, if_pos (by omega), vec_comma (by rw [vec_write_length]; omega), vec_write_eq (by omega)]
    congr 1
    rw [List.take_append_of_le_length (by simp; omega), List.take_of_length_le (by simp), List.flatten_cons, List.append_assoc]

theorem vec_subLoop {x : List α} {a : Nat} : ∀ {l : List Nat} {s : List α}, (∀ i ∈ l, i + a < x.length ∧ i < s.length) →
    ∃ y, subLoop x a l s = some y ∧ y.length = s.length ∧ ∀ i, y[i]? = if i ∈ l then x[i + a]? else s[i]?
  | [], s, _ => ⟨s, rfl, rfl, fun i => by simp⟩
  | j :: l, s, h => by
    obtain ⟨h1, h2⟩ := h j (by simp)
    obtain ⟨y, k1, k2, k3⟩ := vec_subLoop (x := x) (a := a) (l := l) (s := s.set j x[j + a]) fun i hi => by
      rw [List.length_set]; exact h i (by simp [hi])
    refine ⟨y, ?_, by rw [k2, List.length_set], fun i => ?_⟩
    · rw [subLoop, List.getElem?_eq_getElem h1]; exact k1
    · rw [k3 i, List.getElem?_set]
      by_cases e : j = i
      · subst e
        simp [h1, h2]
      · have e' : ¬ i = j := fun hh => e hh.symm
        simp [e, e']

end any

section order
variable {K : Type*} [LinearOrder K]

theorem vec_cartDyn {x y : Box K} : cartDyn x y = some (x ++ y) := by
  unfold cartDyn
  rw [vec_comma (by simp)]
  simp

theorem vec_cartProd : ∀ {l : List (Opd K)} {x y : Opd K}, cartProd x y l = some (x.toVec ++ y.toVec ++ (l.map Opd.toVec).flatten)
  | [], x, y => by rw [cartProd, vec_cartDyn]; simp
  | z :: l, x, y => by
    rw [cartProd, vec_cartDyn]
    exact (vec_cartProd (l := l)).trans (by simp [Opd.toVec])

theorem vec_cartStatic {x y : Opd K} : cartStatic x y = some (x.toVec ++ y.toVec) := by
  cases x <;> cases y
  · rfl
  · rw [cartStatic, vec_comma (by simp)]; simp [Opd.toVec]
  · rw [cartStatic, vec_comma (by simp)]; simp [Opd.toVec]
  · rw [cartStatic, vec_comma (by simp)]; simp [Opd.toVec]

theorem vec_cartProdStatic : ∀ {l : List (Opd K)} {x y : Opd K}, cartProdStatic x y l = some (x.toVec ++ y.toVec ++ (l.map Opd.toVec).flatten)
  | [], x, y => by rw [cartProdStatic, vec_cartStatic]; simp
  | z :: l, x, y => by
    rw [cartProdStatic, vec_cartStatic]
    exact (vec_cartProdStatic (l := l)).trans (by simp [Opd.toVec])

theorem inBox_flatten : ∀ {X : List (Box K)} {v : List K}, InBox v X.flatten ↔ ∃ vs, List.Forall₂ InBox vs X ∧ v = vs.flatten
  | [], v => by
    constructor
    · intro h
      have : v = [] := List.eq_nil_of_length_eq_zero (InBox.length h)
      exact ⟨[], .nil, this⟩
    · rintro ⟨vs, h, rfl⟩
      cases h
      exact .nil
  | B :: X, v => by
    constructor
    · intro h
      obtain ⟨h1, h2⟩ := inBox_split (X := B) (Y := X.flatten) h
      obtain ⟨vs, k1, k2⟩ := inBox_flatten.mp h2
      exact ⟨_ :: vs, .cons h1 k1, by rw [List.flatten_cons, ← k2, List.take_append_drop]⟩
    · rintro ⟨vs, h, rfl⟩
      cases h with
      | cons h1 h2 => exact InBox.append h1 (inBox_flatten.mpr ⟨_, h2, rfl⟩)

/-- the points of an operand: the numbers of an interval (as vectors of one component), or the vectors of a box -/
def InOpd (v : List K) : Opd K → Prop
  | .itv I => ∃ a, v = [a] ∧ a ∈ I
  | .vec X => InBox v X

theorem inOpd_iff {v : List K} {o : Opd K} : InOpd v o ↔ InBox v o.toVec := by
  cases o with
  | vec X => exact Iff.rfl
  | itv I =>
    constructor
    · rintro ⟨a, rfl, h⟩; exact .cons h .nil
    · intro h
      cases h with
      | cons h1 h2 => cases h2; exact ⟨_, rfl, h1⟩

/-- **C155**, cartesian product: whatever the number and the types of the operands, its points are the concatenations of one point of each operand, in their order; the sizes known when compiling or not give the same box -/
theorem C155_cart_prod (x y : Opd K) (l : List (Opd K)) :
    ∃ P, cartProd x y l = some P ∧ cartProdStatic x y l = some P ∧
      ∀ v, InBox v P ↔ ∃ vs, List.Forall₂ InOpd vs (x :: y :: l) ∧ v = vs.flatten := by
  refine ⟨_, vec_cartProd, vec_cartProdStatic, fun v => ?_⟩
  have e : x.toVec ++ y.toVec ++ (l.map Opd.toVec).flatten = ((x :: y :: l).map Opd.toVec).flatten := by simp
  rw [e, inBox_flatten]
  have h : ∀ vs, List.Forall₂ InBox vs ((x :: y :: l).map Opd.toVec) ↔ List.Forall₂ InOpd vs (x :: y :: l) := fun vs => by
    rw [List.forall₂_map_right_iff]
    exact ⟨fun h => h.imp fun _ _ hh => inOpd_iff.mpr hh, fun h => h.imp fun _ _ hh => inOpd_iff.mp hh⟩
  exact exists_congr fun vs => by rw [h]

theorem vec_subvector {X : Box K} {a b : Nat} (hb : b < X.length) (hab : a ≤ b) : subvector X a b = some ((X.drop a).take (b - a + 1)) := by
  unfold subvector
  rw [if_pos ⟨hb, hab⟩]
  obtain ⟨y, k1, k2, k3⟩ := vec_subLoop (x := X) (a := a) (l := List.range (b - a + 1)) (s := List.replicate (b - a + 1) ⊤) fun i hi => by
    rw [List.mem_range] at hi
    rw [List.length_replicate]
    omega
  rw [k1]
  congr 1
  apply List.ext_getElem?
  intro i
  rw [k3 i, List.getElem?_take, List.getElem?_drop, List.getElem?_replicate]
  by_cases hi : i < b - a + 1
  · rw [if_pos (List.mem_range.mpr hi), if_pos hi, Nat.add_comm]
  · rw [if_neg (fun h => hi (List.mem_range.mp h)), if_neg hi, if_neg hi]

/-- **C155**, subvector: the projection of the box on the components from `a` to `b`, both included. The projection is exact when the box has a point -/
theorem C155_subvector {X : Box K} {a b : Nat} (hb : b < X.length) (hab : a ≤ b) :
    ∃ Y, subvector X a b = some Y ∧ Y.length = b - a + 1 ∧ (∀ i, a ≤ i → i ≤ b → Y[i - a]? = X[i]?) ∧
      (∀ v, InBox v X → InBox ((v.drop a).take (b - a + 1)) Y) ∧
      ((∃ v, InBox v X) → ∀ w, InBox w Y → ∃ v, InBox v X ∧ (v.drop a).take (b - a + 1) = w) := by
  refine ⟨_, vec_subvector hb hab, by rw [List.length_take, List.length_drop]; omega, fun i h1 h2 => ?_, fun v hv => ?_, ?_⟩
  · rw [List.getElem?_take, if_pos (by omega), List.getElem?_drop, Nat.add_sub_cancel' h1]
  · exact List.forall₂_take (b - a + 1) (List.forall₂_drop a hv)
  · rintro ⟨v, hv⟩ w hw
    have hl := InBox.length hv
    have hwl : w.length = b - a + 1 := by
      rw [InBox.length hw, List.length_take, List.length_drop]; omega
    refine ⟨v.take a ++ w ++ v.drop (b + 1), ?_, ?_⟩
    · have e : X = X.take a ++ (X.drop a).take (b - a + 1) ++ X.drop (b + 1) := by
        have : X.drop (b + 1) = (X.drop a).drop (b - a + 1) := by rw [List.drop_drop]; congr 1; omega
        rw [this, List.append_assoc, List.take_append_drop, List.take_append_drop]
      rw [e]
      exact InBox.append (InBox.append (List.forall₂_take a hv) hw) (List.forall₂_drop (b + 1) hv)
    · rw [List.append_assoc, List.drop_append_of_le_length (by rw [List.length_take]; omega)]
      rw [List.drop_of_length_le (by rw [List.length_take]; omega), List.nil_append, List.take_append_of_le_length (by omega), List.take_of_length_le (by omega)]

/-- **C155**, put: the components from `I` on are those of `y`, the others are kept; taking the subvector gives `y` back -/
theorem C155_put {X y : Box K} {I : Nat} (hy : y ≠ []) (h : I + y.length ≤ X.length) :
    ∃ Z, put X I y = some Z ∧ Z.length = X.length ∧ (∀ i, I ≤ i → i < I + y.length → Z[i]? = y[i - I]?) ∧
      (∀ i, i < I ∨ I + y.length ≤ i → Z[i]? = X[i]?) ∧ subvector Z I (I + y.length - 1) = some y := by
  have hp : 0 < y.length := List.length_pos_iff.mpr hy
  refine ⟨_, by unfold put; exact if_pos ⟨by omega, by omega⟩, vec_write_length, fun i h1 h2 => ?_, fun i hi => ?_, ?_⟩
  · rw [vec_write_get h, if_pos ⟨h1, h2⟩]
  · rw [vec_write_get h, if_neg (by omega)]
  · rw [vec_subvector (by rw [vec_write_length]; omega) (by omega), vec_write_eq h]
    congr 1
    rw [List.append_assoc, List.drop_append_of_le_length (by rw [List.length_take]; omega), List.drop_of_length_le (by rw [List.length_take]; omega), List.nil_append]
    rw [List.take_append_of_le_length (by omega), List.take_of_length_le (by omega)]

/-- **C155**: the operands of a product of two vectors are its subvectors -/
theorem C155_back {x y : Box K} (hx : x ≠ []) (hy : y ≠ []) :
    ∃ P, cartProd (.vec x) (.vec y) [] = some P ∧ subvector P 0 (x.length - 1) = some x ∧ subvector P x.length (x.length + y.length - 1) = some y := by
  have h1 : 0 < x.length := List.length_pos_iff.mpr hx
  have h2 : 0 < y.length := List.length_pos_iff.mpr hy
  refine ⟨x ++ y, by rw [vec_cartProd]; simp [Opd.toVec], ?_, ?_⟩
  · rw [vec_subvector (by simp; omega) (by omega)]
    congr 1
    rw [List.drop_zero, List.take_append_of_le_length (by omega), List.take_of_length_le (by omega)]
  · rw [vec_subvector (by simp; omega) (by omega)]
    congr 1
    rw [List.drop_left, List.take_of_length_le (by omega)]

open Codac.C2.Mx

theorem mx_combine {op : Itv K → Itv K → Itv K} {B : Mx (Itv K)} : ∀ {l : List (Nat × Nat)} {X : Mx (Itv K)}, l.Nodup → MxOk X →
    (∀ p ∈ l, p.1 < X.rows ∧ p.2 < X.cols ∧ ∃ b, B.get? p.1 p.2 = some b) →
    ∃ Y, combineLoop op B l X = some Y ∧ Y.rows = X.rows ∧ Y.cols = X.cols ∧ MxOk Y ∧
      ∀ i < X.rows, ∀ j, Y.get? i j = if (i, j) ∈ l then (X.get? i j).bind fun a => (B.get? i j).map fun b => op a b else X.get? i j
  | [], X, _, h, _ => ⟨X, rfl, rfl, rfl, h, fun i _ j => by simp⟩
  | p :: l, X, hn, h, hl => by
    obtain ⟨p1, p2, b, hb⟩ := hl p (by simp)
    obtain ⟨a, ha⟩ := mx_get_some h p1 p2
    obtain ⟨hp, hn'⟩ := List.nodup_cons.mp hn
    obtain ⟨Y, k1, k2, k3, k4, k5⟩ := mx_combine (op := op) (B := B) (l := l) (X := X.put p.1 p.2 (op a b)) hn' (by simpa [MxOk, Mx.put] using h) fun q hq => hl q (by simp [hq])
    refine ⟨Y, by rw [combineLoop, ha, hb]; exact k1, k2, k3, k4, fun i hi j => ?_⟩
    rw [k5 i hi j, mx_put_get h p1 p2 hi]
    by_cases e : (i, j) = p
    · have e1 : i = p.1 := congrArg Prod.fst e
      have e2 : j = p.2 := congrArg Prod.snd e
      subst e1; subst e2
      simp [hp, ha, hb]
    · have e' : ¬ (i, j) = (p.1, p.2) := e
      rw [if_neg e']
      simp [e]

theorem mx_pairs_nodup (r c : Nat) : (pairs r c).Nodup := by
  unfold pairs
  rw [List.nodup_flatMap]
  refine ⟨fun i _ => List.Nodup.map (fun a b h => (Prod.mk.inj h).2) List.nodup_range, ?_⟩
  refine List.nodup_range.imp fun {a b} hab => ?_
  intro x hx hy
  simp only [List.mem_map] at hx hy
  obtain ⟨_, _, rfl⟩ := hx
  obtain ⟨_, _, e⟩ := hy
  exact hab (Prod.mk.inj e).1.symm

theorem mx_combine_all {op : Itv K → Itv K → Itv K} {A B : Mx (Itv K)} (hA : MxOk A) (hB : MxOk B) (hr : A.rows = B.rows) (hc : A.cols = B.cols) :
    ∃ Y, combineLoop op B (pairs A.rows B.cols) A = some Y ∧ Y.rows = A.rows ∧ Y.cols = A.cols ∧ MxOk Y ∧
      ∀ i < A.rows, ∀ j < A.cols, ∃ a b, A.get? i j = some a ∧ B.get? i j = some b ∧ Y.get? i j = some (op a b) := by
  obtain ⟨Y, k1, k2, k3, k4, k5⟩ := mx_combine (op := op) (B := B) (l := pairs A.rows B.cols) (X := A) (mx_pairs_nodup _ _) hA fun p hp => by
    obtain ⟨p1, p2⟩ := mx_mem_pairs.mp hp
    exact ⟨p1, hc ▸ p2, mx_get_some hB (hr ▸ p1) p2⟩
  refine ⟨Y, k1, k2, k3, k4, fun i hi j hj => ?_⟩
  obtain ⟨a, ha⟩ := mx_get_some hA hi hj
  obtain ⟨b, hb⟩ := mx_get_some hB (hr ▸ hi) (hc ▸ hj)
  exact ⟨a, b, ha, hb, by rw [k5 i hi j, if_pos (mx_mem_pairs.mpr ⟨hi, hc ▸ hj⟩), ha, hb]; rfl⟩

/-- **C156**, intersection of two matrices of intervals: exactly the matrices which are in both -/
theorem C156_inter {A B : Mx (Itv K)} (hA : MxOk A) (hB : MxOk B) (hr : A.rows = B.rows) (hc : A.cols = B.cols) :
    ∃ Y, inter A B = some Y ∧ Y.rows = A.rows ∧ Y.cols = A.cols ∧ MxOk Y ∧ ∀ M : Nat → Nat → K, MxIn M Y ↔ MxIn M A ∧ MxIn M B := by
  obtain ⟨Y, k1, k2, k3, k4, k5⟩ := mx_combine_all (op := (· ⊓ ·)) hA hB hr hc
  refine ⟨Y, by unfold inter; rw [if_pos ⟨hc, hr⟩]; exact k1, k2, k3, k4, fun M => ⟨fun h => ⟨fun i hi j hj I hI => ?_, fun i hi j hj I hI => ?_⟩, fun ⟨h1, h2⟩ i hi j hj I hI => ?_⟩⟩
  · obtain ⟨a, b, ha, hb, hy⟩ := k5 i hi j hj
    rw [ha] at hI
    obtain rfl := Option.some.inj hI
    exact (Itv.mem_inf.mp (h i (k2 ▸ hi) j (k3 ▸ hj) _ hy)).1
  · have hi' : i < A.rows := hr ▸ hi
    have hj' : j < A.cols := hc ▸ hj
    obtain ⟨a, b, ha, hb, hy⟩ := k5 i hi' j hj'
    rw [hb] at hI
    obtain rfl := Option.some.inj hI
    exact (Itv.mem_inf.mp (h i (k2 ▸ hi') j (k3 ▸ hj') _ hy)).2
  · have hi' : i < A.rows := k2 ▸ hi
    have hj' : j < A.cols := k3 ▸ hj
    obtain ⟨a, b, ha, hb, hy⟩ := k5 i hi' j hj'
    rw [hy] at hI
    obtain rfl := Option.some.inj hI
    exact Itv.mem_inf.mpr ⟨h1 i hi' j hj' a ha, h2 i (hr ▸ hi') j (hc ▸ hj') b hb⟩

/-- **C156**, union of two matrices of intervals: it holds the matrices of both, and each of its coefficients is the smallest interval with the two coefficients -/
theorem C156_hull {A B : Mx (Itv K)} (hA : MxOk A) (hB : MxOk B) (hr : A.rows = B.rows) (hc : A.cols = B.cols) :
    ∃ Y, hull A B = some Y ∧ Y.rows = A.rows ∧ Y.cols = A.cols ∧ MxOk Y ∧
      (∀ M : Nat → Nat → K, MxIn M A ∨ MxIn M B → MxIn M Y) ∧
      ∀ i < A.rows, ∀ j < A.cols, ∃ a b y, A.get? i j = some a ∧ B.get? i j = some b ∧ Y.get? i j = some y ∧ ∀ z : Itv K, y ≤ z ↔ a ≤ z ∧ b ≤ z := by
  obtain ⟨Y, k1, k2, k3, k4, k5⟩ := mx_combine_all (op := (· ⊔ ·)) hA hB hr hc
  refine ⟨Y, by unfold hull; rw [if_pos ⟨hc, hr⟩]; exact k1, k2, k3, k4, fun M h i hi j hj I hI => ?_, fun i hi j hj => ?_⟩
  · have hi' : i < A.rows := k2 ▸ hi
    have hj' : j < A.cols := k3 ▸ hj
    obtain ⟨a, b, ha, hb, hy⟩ := k5 i hi' j hj'
    rw [hy] at hI
    obtain rfl := Option.some.inj hI
    rcases h with h | h
    · exact Itv.mem_of_le le_sup_left (h i hi' j hj' a ha)
    · exact Itv.mem_of_le le_sup_right (h i (hr ▸ hi') j (hc ▸ hj') b hb)
  · obtain ⟨a, b, ha, hb, hy⟩ := k5 i hi j hj
    exact ⟨a, b, _, ha, hb, hy, fun z => sup_le_iff⟩

end order

open Codac.C2.Mx

/-- **C156**, conversions: the same sizes and the same coefficients, whatever was in the memory; a conversion and back gives the same matrix -/
theorem C156_copy {α : Type*} (z z' : α) {A : Mx α} (hA : MxOk A) :
    ∃ B, copy z A = some B ∧ B.rows = A.rows ∧ B.cols = A.cols ∧ (∀ i < A.rows, ∀ j < A.cols, B.get? i j = A.get? i j) ∧ (copy z A).bind (copy z') = some A := by
  have key : ∀ (w : α) {X : Mx α}, MxOk X → ∃ B, copy w X = some B ∧ B.rows = X.rows ∧ B.cols = X.cols ∧ MxOk B ∧ ∀ i < X.rows, ∀ j < X.cols, B.get? i j = X.get? i j := by
    intro w X hX
    obtain ⟨Y, k1, k2, k3, k4, k5⟩ := mx_fill (f := X.get?) (l := pairs X.rows X.cols) (mx_const_ok X.rows X.cols w) fun p hp => by
      obtain ⟨p1, p2⟩ := mx_mem_pairs.mp hp
      exact ⟨p1, p2, mx_get_some hX p1 p2⟩
    exact ⟨Y, k1, k2, k3, k4, fun i hi j hj => by rw [k5 i hi j, if_pos (mx_mem_pairs.mpr ⟨hi, hj⟩)]⟩
  have same : ∀ (w : α) {X : Mx α}, MxOk X → copy w X = some X := by
    intro w X hX
    obtain ⟨B, b1, b2, b3, b4, b5⟩ := key w hX
    rw [b1]
    congr 1
    obtain ⟨br, bc, bd⟩ := B
    obtain ⟨xr, xc, xd⟩ := X
    dsimp only at b2 b3
    subst b2; subst b3
    congr 1
    apply List.ext_getElem?
    intro n
    by_cases hn : n < br * bc
    · have hr : 0 < br := Nat.pos_of_ne_zero fun h => by rw [h, Nat.zero_mul] at hn; omega
      have hd : n / br < bc := Nat.div_lt_of_lt_mul hn
      have := b5 (n % br) (Nat.mod_lt n hr) (n / br) hd
      unfold Mx.get? at this
      dsimp only at this
      rwa [Nat.div_add_mod'] at this
    · have e1 : bd.length = br * bc := b4
      have e2 : xd.length = br * bc := hX
      rw [List.getElem?_eq_none (by omega), List.getElem?_eq_none (by omega)]
  obtain ⟨B, b1, b2, b3, b4, b5⟩ := key z hA
  refine ⟨B, b1, b2, b3, b5, ?_⟩
  rw [same z hA]
  exact same z' hA

/-- hypotheses of `C155_*` met: an interval and a vector of two intervals; a subvector; a put -/
example : cartProd (.itv (Itv.icc (0 : ℚ) 1)) (.vec [Itv.icc 2 3, Itv.icc 4 5]) [.itv (Itv.icc 6 7)] = some [Itv.icc 0 1, Itv.icc 2 3, Itv.icc 4 5, Itv.icc 6 7] ∧
    subvector [Itv.icc (0 : ℚ) 1, Itv.icc 2 3, Itv.icc 4 5] 1 2 = some [Itv.icc 2 3, Itv.icc 4 5] ∧
    put [Itv.icc (0 : ℚ) 1, Itv.icc 2 3, Itv.icc 4 5] 1 [Itv.icc 8 9] = some [Itv.icc 0 1, Itv.icc 8 9, Itv.icc 4 5] := by
  decide +kernel

/-- hypotheses of `C156_*` met: matrices of two rows and one column -/
example : inter (⟨2, 1, [Itv.icc (0 : ℚ) 2, Itv.icc 1 4]⟩ : Mx (Itv ℚ)) ⟨2, 1, [Itv.icc 1 3, Itv.icc 3 5]⟩ = some ⟨2, 1, [Itv.icc 1 2, Itv.icc 3 4]⟩ ∧
    hull (⟨2, 1, [Itv.icc (0 : ℚ) 2, Itv.icc 1 4]⟩ : Mx (Itv ℚ)) ⟨2, 1, [Itv.icc 1 3, Itv.icc 3 5]⟩ = some ⟨2, 1, [Itv.icc 0 3, Itv.icc 1 5]⟩ ∧
    copy 0 (⟨2, 1, [3, 4]⟩ : Mx ℚ) = some ⟨2, 1, [3, 4]⟩ := by
  decide +kernel

end Codac.Props
