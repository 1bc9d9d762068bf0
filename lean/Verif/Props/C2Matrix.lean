import Verif.C2.Matrix
import Verif.Props.TrajOps
import Verif.Geometry.Inter
import Mathlib.Data.List.Basic
import Mathlib.Tactic.Linarith

/-!
# C154: the matrices of intervals of codac2
-/

set_option linter.unusedSectionVars false

namespace Codac.Props
open Codac Codac.C2 Codac.C2.Mx

section any
variable {α : Type*}

/-- as many coefficients as the sizes say -/
def MxOk (X : Mx α) : Prop := X.data.length = X.rows * X.cols

theorem mx_idx_lt {r c i j : Nat} (hi : i < r) (hj : j < c) : j * r + i < r * c := by
  have : (j + 1) * r ≤ c * r := Nat.mul_le_mul_right r hj
  rw [Nat.succ_mul] at this
  rw [Nat.mul_comm r c]
  omega

theorem mx_idx_inj {r i j i' j' : Nat} (hi : i < r) (hi' : i' < r) (h : j * r + i = j' * r + i') : i = i' ∧ j = j' := by
  have h1 : (j * r + i) % r = i := by rw [Nat.add_comm, Nat.add_mul_mod_self_right, Nat.mod_eq_of_lt hi]
  have h2 : (j' * r + i') % r = i' := by rw [Nat.add_comm, Nat.add_mul_mod_self_right, Nat.mod_eq_of_lt hi']
  have e : i = i' := by rw [← h1, ← h2, h]
  subst e
  exact ⟨rfl, Nat.eq_of_mul_eq_mul_right (by omega : 0 < r) (by omega)⟩

theorem mx_get_some {X : Mx α} (h : MxOk X) {i j : Nat} (hi : i < X.rows) (hj : j < X.cols) : ∃ v, X.get? i j = some v :=
  ⟨_, List.getElem?_eq_getElem (by rw [h]; exact mx_idx_lt hi hj)⟩

theorem mx_const_ok (r c : Nat) (v : α) : MxOk (Mx.const r c v) := by simp [MxOk, Mx.const]

theorem mx_const_get {r c i j : Nat} (v : α) (hi : i < r) (hj : j < c) : (Mx.const r c v).get? i j = some v := by
  unfold Mx.get? Mx.const
  rw [List.getElem?_replicate, if_pos (mx_idx_lt hi hj)]

theorem mx_put_get {X : Mx α} (h : MxOk X) {i j i' j' : Nat} (hi : i < X.rows) (hj : j < X.cols) (hi' : i' < X.rows) (v : α) :
    (X.put i j v).get? i' j' = if (i', j') = (i, j) then some v else X.get? i' j' := by
  unfold Mx.get? Mx.put
  dsimp only
  rw [List.getElem?_set]
  split_ifs with h1 h2 h3 h4 h5
  · rfl
  · obtain ⟨rfl, rfl⟩ := mx_idx_inj hi hi' h1; exact absurd rfl h3
  · exact absurd (by rw [h]; exact mx_idx_lt hi hj) h2
  · exact absurd (by rw [h]; exact mx_idx_lt hi hj) h2
  · obtain ⟨rfl, rfl⟩ := Prod.mk.inj h5; exact absurd rfl h1
  · rfl

theorem mx_fill {f : Nat → Nat → Option α} : ∀ {l : List (Nat × Nat)} {X : Mx α}, MxOk X → (∀ p ∈ l, p.1 < X.rows ∧ p.2 < X.cols ∧ ∃ v, f p.1 p.2 = some v) →
    ∃ Y, fill f l X = some Y ∧ Y.rows = X.rows ∧ Y.cols = X.cols ∧ MxOk Y ∧ ∀ i < X.rows, ∀ j, Y.get? i j = if (i, j) ∈ l then f i j else X.get? i j
  | [], X, h, _ => ⟨X, rfl, rfl, rfl, h, fun i _ j => by simp⟩
  | p :: l, X, h, hl => by
    obtain ⟨p1, p2, v, hv⟩ := hl p (by simp)
    obtain ⟨Y, k1, k2, k3, k4, k5⟩ := mx_fill (f := f) (l := l) (X := X.put p.1 p.2 v) (by simpa [MxOk, Mx.put] using h) fun q hq => hl q (by simp [hq])
    refine ⟨Y, by rw [fill, hv]; exact k1, k2, k3, k4, fun i hi j => ?_⟩
    rw [k5 i hi j, mx_put_get h p1 p2 hi]
    by_cases e : (i, j) = p
    · have e1 : i = p.1 := congrArg Prod.fst e
      have e2 : j = p.2 := congrArg Prod.snd e
      subst e1; subst e2
      simp [hv]
    · have e' : ¬ (i, j) = (p.1, p.2) := e
      rw [if_neg e']
      simp [e]

theorem mx_mem_pairs {r c : Nat} {p : Nat × Nat} : p ∈ pairs r c ↔ p.1 < r ∧ p.2 < c := by
  obtain ⟨i, j⟩ := p
  simp [pairs]

theorem mx_pairs_index {c : Nat} : ∀ {r n : Nat} {p : Nat × Nat}, (pairs r c)[n]? = some p → n = p.1 * c + p.2 := by
  intro r
  have hlen : ∀ r, (pairs r c).length = r * c := fun r => by simp [pairs]
  induction r with
  | zero => intro n p h; simp [pairs] at h
  | succ r ih =>
    intro n p h
    have e : pairs (r + 1) c = pairs r c ++ (List.range c).map fun j => (r, j) := by simp [pairs, List.range_succ]
    rw [e, List.getElem?_append] at h
    split_ifs at h with hn
    · exact ih h
    · rw [hlen] at hn h
      rw [List.getElem?_map] at h
      obtain ⟨j, hj, rfl⟩ := Option.map_eq_some_iff.mp h
      rw [List.getElem?_eq_some_iff] at hj
      obtain ⟨_, hj⟩ := hj
      rw [List.getElem_range] at hj
      dsimp only
      omega

end any

section order
variable {K : Type*} [LinearOrder K]

/-- the matrix of numbers `M` is in the matrix of intervals `X` -/
def MxIn (M : Nat → Nat → K) (X : Mx (Itv K)) : Prop := ∀ i < X.rows, ∀ j < X.cols, ∀ I, X.get? i j = some I → M i j ∈ I

theorem mx_boundsLoop {b : List (K × K)} {f : Nat → Nat → Option (Itv K)} : ∀ {l : List (Nat × Nat)} {k : Nat} {X : Mx (Itv K)},
    (∀ n p, l[n]? = some p → f p.1 p.2 = b[k + n]?.map fun v => Itv.icc v.1 v.2) → boundsLoop b l k X = fill f l X
  | [], _, _, _ => rfl
  | p :: l, k, X, h => by
    have h0 := h 0 p rfl
    rw [Nat.add_zero] at h0
    rw [boundsLoop, fill, h0]
    cases b[k]? with
    | none => rfl
    | some v =>
      exact mx_boundsLoop fun n q hq => by
        rw [h (n + 1) q hq, Nat.add_right_comm, Nat.add_assoc]

/-- **C154**, constructor with bounds: the bounds are given row by row -/
theorem C154_bounds {r c : Nat} {b : List (K × K)} (hb : r * c ≤ b.length) :
    ∃ X, ofBounds r c b = some X ∧ X.rows = r ∧ X.cols = c ∧ MxOk X ∧
      ∀ i < r, ∀ j < c, ∃ v, b[i * c + j]? = some v ∧ X.get? i j = some (Itv.icc v.1 v.2) := by
  have hv : ∀ i < r, ∀ j < c, ∃ v, b[i * c + j]? = some v := fun i hi j hj =>
    ⟨_, List.getElem?_eq_getElem (by have := mx_idx_lt hj hi; rw [Nat.mul_comm c r] at this; omega)⟩
  obtain ⟨Y, k1, k2, k3, k4, k5⟩ := mx_fill (f := fun i j => b[i * c + j]?.map fun v => Itv.icc v.1 v.2) (l := pairs r c) (mx_const_ok r c (⊤ : Itv K)) fun p hp => by
    obtain ⟨p1, p2⟩ := mx_mem_pairs.mp hp
    obtain ⟨v, e⟩ := hv _ p1 _ p2
    exact ⟨p1, p2, _, by rw [e]; rfl⟩
  refine ⟨Y, ?_, k2, k3, k4, fun i hi j hj => ?_⟩
  · unfold ofBounds
    rw [mx_boundsLoop fun n p hp => ?_]
    · exact k1
    · rw [Nat.zero_add, ← mx_pairs_index hp]
  · obtain ⟨v, e⟩ := hv i hi j hj
    exact ⟨v, e, by rw [k5 i hi j, if_pos (mx_mem_pairs.mpr ⟨hi, hj⟩), e]; rfl⟩

/-- **C154**, constructor with two matrices: exactly the matrices between them -/
theorem C154_lb_ub {L U : Mx K} (hL : MxOk L) (hU : MxOk U) (hr : L.rows = U.rows) (hc : L.cols = U.cols) :
    ∃ X, ofLbUb L U = some X ∧ X.rows = L.rows ∧ X.cols = L.cols ∧ MxOk X ∧
      ∀ M : Nat → Nat → K, MxIn M X ↔ ∀ i < L.rows, ∀ j < L.cols, ∀ a b, L.get? i j = some a → U.get? i j = some b → a ≤ M i j ∧ M i j ≤ b := by
  obtain ⟨Y, k1, k2, k3, k4, k5⟩ := mx_fill (f := fun i j => (L.get? i j).bind fun a => (U.get? i j).map fun b => Itv.icc a b) (l := pairs L.rows L.cols)
      (mx_const_ok L.rows L.cols (⊤ : Itv K)) fun p hp => by
    obtain ⟨p1, p2⟩ := mx_mem_pairs.mp hp
    obtain ⟨a, e⟩ := mx_get_some hL p1 p2
    obtain ⟨b, e'⟩ := mx_get_some hU (hr ▸ p1) (hc ▸ p2)
    exact ⟨p1, p2, _, by rw [e, e']; rfl⟩
  have hg : ∀ i < L.rows, ∀ j < L.cols, ∃ a b, L.get? i j = some a ∧ U.get? i j = some b ∧ Y.get? i j = some (Itv.icc a b) := fun i hi j hj => by
    obtain ⟨a, e⟩ := mx_get_some hL hi hj
    obtain ⟨b, e'⟩ := mx_get_some hU (hr ▸ hi) (hc ▸ hj)
    exact ⟨a, b, e, e', by rw [k5 i hi j, if_pos (mx_mem_pairs.mpr ⟨hi, hj⟩), e, e']; rfl⟩
  refine ⟨Y, by unfold ofLbUb; rw [if_pos ⟨hr, hc⟩]; exact k1, k2, k3, k4, fun M => ⟨fun hM i hi j hj a b ha hb => ?_, fun hM i hi j hj I hI => ?_⟩⟩
  · obtain ⟨a', b', e1, e2, e3⟩ := hg i hi j hj
    rw [ha] at e1; cases e1
    rw [hb] at e2; cases e2
    exact Itv.mem_icc.mp (hM i (by rw [k2]; exact hi) j (by rw [k3]; exact hj) _ e3)
  · obtain ⟨a, b, e1, e2, e3⟩ := hg i (k2 ▸ hi) j (k3 ▸ hj)
    rw [hI] at e3; cases e3
    exact Itv.mem_icc.mpr (hM i (k2 ▸ hi) j (k3 ▸ hj) a b e1 e2)

/-- **C154**, `resize`: the coefficients common to the two sizes are kept at their row and column, the new ones are the whole line -/
theorem C154_resize {X : Mx (Itv K)} (hX : MxOk X) (r c : Nat) :
    ∃ Y, resize X r c = some Y ∧ Y.rows = r ∧ Y.cols = c ∧ MxOk Y ∧
      ∀ i < r, ∀ j < c, Y.get? i j = if i < X.rows ∧ j < X.cols then X.get? i j else some ⊤ := by
  obtain ⟨Y, k1, k2, k3, k4, k5⟩ := mx_fill (f := X.get?) (l := pairs (min X.rows r) (min X.cols c)) (mx_const_ok r c (⊤ : Itv K)) fun p hp => by
    obtain ⟨p1, p2⟩ := mx_mem_pairs.mp hp
    obtain ⟨p1, p1'⟩ := lt_min_iff.mp p1
    obtain ⟨p2, p2'⟩ := lt_min_iff.mp p2
    exact ⟨p1', p2', mx_get_some hX p1 p2⟩
  refine ⟨Y, k1, k2, k3, k4, fun i hi j hj => ?_⟩
  rw [k5 i hi j, mx_const_get _ hi hj]
  simp only [mx_mem_pairs, lt_min_iff, hi, hj, and_true]

/-- **C154**, list of rows: the coefficient `(i,j)` is the `j`-th of the `i`-th row; rows of different lengths are refused -/
theorem C154_rows (l : List (List (Itv K))) : (∀ {n : Nat}, l ≠ [] → (∀ r ∈ l, r.length = n) → ∃ X, ofRows l = some X ∧ X.rows = l.length ∧ X.cols = n ∧ MxOk X ∧
      ∀ i < l.length, ∀ j < n, X.get? i j = l[i]?.bind fun r => r[j]?) ∧ ((∃ r ∈ l, ∃ r' ∈ l, r.length ≠ r'.length) → ofRows l = none) := by
  constructor
  · intro n hne hn
    obtain ⟨r0, l', rfl⟩ := List.exists_cons_of_ne_nil hne
    have e0 := hn r0 (by simp)
    subst e0
    obtain ⟨Y, k1, k2, k3, k4, k5⟩ := mx_fill (f := fun i j => (r0 :: l')[i]?.bind fun r => r[j]?) (l := pairs (r0 :: l').length r0.length)
        (mx_const_ok (r0 :: l').length r0.length (⊤ : Itv K)) fun p hp => by
      obtain ⟨p1, p2⟩ := mx_mem_pairs.mp hp
      have hm : (r0 :: l')[p.1]'p1 ∈ r0 :: l' := List.getElem_mem p1
      exact ⟨p1, p2, ((r0 :: l')[p.1]'p1)[p.2]'(by rw [hn _ hm]; exact p2), by rw [List.getElem?_eq_getElem p1, Option.bind_some, List.getElem?_eq_getElem]⟩
    refine ⟨Y, ?_, k2, k3, k4, fun i hi j hj => ?_⟩
    · simp only [ofRows]
      rw [if_pos hn]
      exact k1
    · rw [k5 i hi j, if_pos (mx_mem_pairs.mpr ⟨hi, hj⟩)]
  · rintro ⟨r, hr, r', hr', h⟩
    cases l with
    | nil => cases hr
    | cons r0 l =>
      simp only [ofRows]
      rw [if_neg]
      intro hall
      exact h ((hall r hr).trans (hall r' hr').symm)

end order

section field
variable {K : Type*} [Field K] [LinearOrder K] [IsStrictOrderedRing K]

/-- **C154**, sum, difference: of matrices of the same sizes, they contain the sums and the differences of their matrices -/
theorem C154_sum (A : IArith K) {X Y : Mx (Itv K)} (hr : X.rows = Y.rows) (hc : X.cols = Y.cols) :
    ∃ S D, zip A.add X Y = some S ∧ zip A.sub X Y = some D ∧ S.rows = X.rows ∧ S.cols = X.cols ∧ D.rows = X.rows ∧ D.cols = X.cols ∧ (MxOk X → MxOk Y → MxOk S ∧ MxOk D) ∧
      ∀ M N : Nat → Nat → K, MxIn M X → MxIn N Y → MxIn (fun i j => M i j + N i j) S ∧ MxIn (fun i j => M i j - N i j) D := by
  have key : ∀ (op : Itv K → Itv K → Itv K) (o : K → K → K), (∀ {I J : Itv K} {a b : K}, a ∈ I → b ∈ J → o a b ∈ op I J) → ∀ M N : Nat → Nat → K, MxIn M X → MxIn N Y →
      MxIn (fun i j => o (M i j) (N i j)) { X with data := List.zipWith op X.data Y.data } := by
    intro op o ho M N hM hN i hi j hj I hI
    unfold Mx.get? at hI
    dsimp only at hI
    rw [List.getElem?_zipWith] at hI
    cases hx : X.data[j * X.rows + i]? with
    | none => rw [hx] at hI; cases hI
    | some a =>
      cases hy : Y.data[j * X.rows + i]? with
      | none => rw [hx, hy] at hI; cases hI
      | some b =>
        rw [hx, hy] at hI
        cases hI
        exact ho (hM i hi j hj a hx) (hN i (hr ▸ hi) j (hc ▸ hj) b (by unfold Mx.get?; rw [← hr]; exact hy))
  refine ⟨_, _, if_pos ⟨hr, hc⟩, if_pos ⟨hr, hc⟩, rfl, rfl, rfl, rfl, fun oX oY => ?_, fun M N hM hN => ⟨?_, ?_⟩⟩
  · unfold MxOk at oX oY ⊢
    simp only [List.length_zipWith, oX, oY, hr, hc, min_self, and_self]
  · exact key A.add (· + ·) A.add_mem M N hM hN
  · exact key A.sub (· - ·) A.sub_mem M N hM hN

theorem mx_map_in {X : Mx (Itv K)} {op : Itv K → Itv K} {o : Nat → Nat → K → K} (ho : ∀ i j I a, a ∈ I → o i j a ∈ op I) {M : Nat → Nat → K} (hM : MxIn M X) :
    MxIn (fun i j => o i j (M i j)) { X with data := X.data.map op } := by
  intro i hi j hj I hI
  unfold Mx.get? at hI
  dsimp only at hI
  rw [List.getElem?_map] at hI
  obtain ⟨J, hJ, rfl⟩ := Option.map_eq_some_iff.mp hI
  exact ho i j J _ (hM i hi j hj J hJ)

/-- **C154**, opposite and product by a number -/
theorem C154_scale (A : IArith K) {X : Mx (Itv K)} (a : K) : ∃ N, neg A X = some N ∧ N.rows = X.rows ∧ N.cols = X.cols ∧ (MxOk X → MxOk N ∧ MxOk (smul A a X)) ∧
    ∀ M : Nat → Nat → K, MxIn M X → MxIn (fun i j => - M i j) N ∧ MxIn (fun i j => a * M i j) (smul A a X) := by
  obtain ⟨_, D, _, e, _, _, d1, d2, d3, h⟩ := C154_sum A (X := Mx.const X.rows X.cols (Itv.point 0)) (Y := X) rfl rfl
  refine ⟨D, e, d1, d2, fun oX => ⟨(d3 (mx_const_ok _ _ _) oX).2, by simpa [MxOk, smul] using oX⟩, fun M hM => ⟨?_, mx_map_in (o := fun _ _ x => a * x) (fun _ _ I x hx => A.mul_mem (Itv.mem_point.mpr rfl) hx) hM⟩⟩
  have h0 : MxIn (fun _ _ => (0 : K)) (Mx.const X.rows X.cols (Itv.point 0)) := fun i hi j hj I hI => by
    have := mx_const_get (Itv.point (0 : K)) (show i < X.rows from hi) (show j < X.cols from hj)
    rw [this] at hI
    cases hI
    exact Itv.mem_point.mpr rfl
  have := (h _ M h0 hM).2
  simpa using this

/-- **C154**, `inflate`: all the matrices within `r` of a matrix of `X`; no other one with an exact arithmetic -/
theorem C154_inflate (A : IArith K) {X : Mx (Itv K)} {r : K} (hr : 0 ≤ r) : ∃ Y, inflate A X r = some Y ∧ Y.rows = X.rows ∧ Y.cols = X.cols ∧ (MxOk X → MxOk Y) ∧
    (∀ M N : Nat → Nat → K, MxIn M X → (∀ i j, |N i j - M i j| ≤ r) → MxIn N Y) ∧
    (A = IArith.exact K → MxOk X → ∀ N, MxIn N Y → ∃ M, MxIn M X ∧ ∀ i < X.rows, ∀ j < X.cols, |N i j - M i j| ≤ r) := by
  refine ⟨_, if_pos hr, rfl, rfl, fun oX => by simpa [MxOk] using oX, fun M N hM hN => ?_, fun hA oX N hN => ?_⟩
  · have := mx_map_in (X := X) (op := fun I => A.add I (Itv.icc (-r) r)) (o := fun i j x => x + (N i j - M i j)) (fun i j I x hx => A.add_mem hx (Itv.mem_icc.mpr (abs_le.mp (hN i j)))) hM
    simpa using this
  · subst hA
    have hex : ∀ i j, ∃ v, i < X.rows → j < X.cols → (∀ I, X.get? i j = some I → v ∈ I) ∧ |N i j - v| ≤ r := by
      intro i j
      by_cases hij : i < X.rows ∧ j < X.cols
      · obtain ⟨I, hI⟩ := mx_get_some oX hij.1 hij.2
        have := hN i hij.1 j hij.2 (Itv.add I (Itv.icc (-r) r)) (by
          unfold Mx.get? at hI ⊢
          rw [List.getElem?_map, hI]
          rfl)
        obtain ⟨v, h1, h2⟩ := mem_add_ball hr this
        refine ⟨v, fun _ _ => ⟨fun J hJ => ?_, h2⟩⟩
        rw [hI] at hJ; cases hJ; exact h1
      · exact ⟨0, fun a b => absurd ⟨a, b⟩ hij⟩
    choose M hM using hex
    exact ⟨M, fun i hi j hj I hI => (hM i j hi hj).1 I hI, fun i hi j hj => (hM i j hi hj).2⟩

/-- **C154**, `inflate` with a matrix: all the matrices within the coefficients of `R` of a matrix of `X` -/
theorem C154_inflate_matrix (A : IArith K) {X : Mx (Itv K)} {R : Mx K} (h1 : R.rows = X.rows) (h2 : R.cols = X.cols) (h0 : ∀ r ∈ R.data, 0 ≤ r) :
    ∃ Y, inflateMat A X R = some Y ∧ Y.rows = X.rows ∧ Y.cols = X.cols ∧ (MxOk X → MxOk R → MxOk Y) ∧
      ∀ M N : Nat → Nat → K, MxIn M X → (∀ i j r, R.get? i j = some r → |N i j - M i j| ≤ r) → MxIn N Y := by
  refine ⟨_, if_pos ⟨h0, h1, h2⟩, rfl, rfl, fun oX oR => ?_, fun M N hM hN i hi j hj I hI => ?_⟩
  · unfold MxOk at oX oR ⊢
    simp only [List.length_zipWith, oX, oR, h1, h2, min_self]
  · unfold Mx.get? at hI
    dsimp only at hI
    rw [List.getElem?_zipWith] at hI
    cases hx : X.data[j * X.rows + i]? with
    | none => rw [hx] at hI; cases hI
    | some a =>
      cases hy : R.data[j * X.rows + i]? with
      | none => rw [hx, hy] at hI; cases hI
      | some r =>
        rw [hx, hy] at hI
        cases hI
        have := A.add_mem (hM i hi j hj a hx) (Itv.mem_icc.mpr (abs_le.mp (hN i j r (by unfold Mx.get?; rw [h1]; exact hy))))
        simpa using this

/-- **C154**, sum with a matrix of numbers -/
theorem C154_sum_numbers (A : IArith K) {X : Mx (Itv K)} {N : Mx K} (hr : X.rows = N.rows) (hc : X.cols = N.cols) :
    ∃ S, addNum A X N = some S ∧ S.rows = X.rows ∧ S.cols = X.cols ∧ (MxOk X → MxOk N → MxOk S) ∧
      ∀ M N' : Nat → Nat → K, MxIn M X → (∀ i < X.rows, ∀ j < X.cols, N.get? i j = some (N' i j)) → MxIn (fun i j => M i j + N' i j) S := by
  obtain ⟨S, _, e, _, k1, k2, _, _, k3, k4⟩ := C154_sum A (X := X) (Y := { N with data := N.data.map Itv.point }) hr hc
  refine ⟨S, e, k1, k2, fun oX oN => (k3 oX (by simpa [MxOk] using oN)).1, fun M N' hM hN => (k4 M N' hM fun i hi j hj I hI => ?_).1⟩
  have := hN i (hr ▸ hi) j (hc ▸ hj)
  unfold Mx.get? at this hI
  rw [List.getElem?_map, this] at hI
  cases hI
  exact Itv.mem_point.mpr rfl

end field

section bounds
variable {K : Type*} [Field K] [LinearOrder K] [IsStrictOrderedRing K]

/-- **C154**, `is_empty`: exactly when the matrix contains no matrix of numbers -/
theorem C154_empty {X : Mx (Itv K)} (hX : MxOk X) : X.isEmpty = true ↔ ¬ ∃ M, MxIn M X := by
  unfold Mx.isEmpty
  rw [List.any_eq_true]
  constructor
  · rintro ⟨I, hI, he⟩ ⟨M, hM⟩
    obtain ⟨k, hk⟩ := List.mem_iff_getElem?.mp hI
    have hlt : k < X.rows * X.cols := hX ▸ (List.getElem?_eq_some_iff.mp hk).1
    have h0 : 0 < X.rows := Nat.pos_of_ne_zero fun e => by rw [e, Nat.zero_mul] at hlt; omega
    have hm := hM (k % X.rows) (Nat.mod_lt _ h0) (k / X.rows) (Nat.div_lt_of_lt_mul hlt) I (by
      unfold Mx.get?
      rw [Nat.div_add_mod']
      exact hk)
    rw [Itv.isEmpty_iff] at he
    rw [he] at hm
    exact hm
  · intro h
    by_contra hne
    push Not at hne
    refine h ?_
    have : ∀ i j, ∃ v, ∀ I, X.get? i j = some I → v ∈ I := by
      intro i j
      cases hI : X.get? i j with
      | none => exact ⟨0, fun I h => by cases h⟩
      | some I =>
        have hn : I ≠ ⊥ := fun e => hne I (List.mem_iff_getElem?.mpr ⟨_, hI⟩) (by rw [e]; rfl)
        obtain ⟨v, hv⟩ := Itv.exists_mem hn
        exact ⟨v, fun J hJ => by cases hJ; exact hv⟩
    choose M hM using this
    exact ⟨M, fun i _ j _ I hI => hM i j I hI⟩

/-- **C154**, `lb` and `ub` of a bounded matrix without empty coefficient: the bounds of each coefficient -/
theorem C154_extremes {X : Mx (Itv K)} (hX : MxOk X) (hb : ∀ I ∈ X.data, ∃ a b, a ≤ b ∧ I = Itv.icc a b) :
    ∃ L U, bnd Itv.lb? X = some L ∧ bnd Itv.ub? X = some U ∧ (L.rows = X.rows ∧ L.cols = X.cols ∧ MxOk L) ∧ (U.rows = X.rows ∧ U.cols = X.cols ∧ MxOk U) ∧
      ∀ i < X.rows, ∀ j < X.cols, ∃ a b, a ≤ b ∧ X.get? i j = some (Itv.icc a b) ∧ L.get? i j = some a ∧ U.get? i j = some b := by
  have he : X.isEmpty = false := by
    unfold Mx.isEmpty
    rw [List.any_eq_false]
    intro I hI
    obtain ⟨a, b, hab, rfl⟩ := hb I hI
    rw [Itv.icc_eq_mk hab]
    simp [Itv.isEmpty]
  have h1 : X.data.mapM Itv.lb? = some (X.data.map fun I => I.lb?.getD 0) := Codac.Poly.mapM_some _ _ _ fun I hI => by
    obtain ⟨a, b, hab, rfl⟩ := hb I hI
    rw [Itv.icc_eq_mk hab]; rfl
  have h2 : X.data.mapM Itv.ub? = some (X.data.map fun I => I.ub?.getD 0) := Codac.Poly.mapM_some _ _ _ fun I hI => by
    obtain ⟨a, b, hab, rfl⟩ := hb I hI
    rw [Itv.icc_eq_mk hab]; rfl
  refine ⟨⟨X.rows, X.cols, X.data.map fun I => I.lb?.getD 0⟩, ⟨X.rows, X.cols, X.data.map fun I => I.ub?.getD 0⟩, by simp [bnd, he, h1], by simp [bnd, he, h2],
    ⟨rfl, rfl, by simpa [MxOk] using hX⟩, ⟨rfl, rfl, by simpa [MxOk] using hX⟩, fun i hi j hj => ?_⟩
  obtain ⟨I, hI⟩ := mx_get_some hX hi hj
  obtain ⟨a, b, hab, rfl⟩ := hb I (List.mem_iff_getElem?.mpr ⟨_, hI⟩)
  refine ⟨a, b, hab, hI, ?_, ?_⟩
  · unfold Mx.get? at hI ⊢
    rw [List.getElem?_map, hI, Itv.icc_eq_mk hab]; rfl
  · unfold Mx.get? at hI ⊢
    rw [List.getElem?_map, hI, Itv.icc_eq_mk hab]; rfl

end bounds

/-! ### Concrete cases -/

example : ofBounds 2 3 [((0 : ℚ), 1), (2, 3), (4, 5), (6, 7), (8, 9), (10, 11)] = some ⟨2, 3, [Itv.icc 0 1, Itv.icc 6 7, Itv.icc 2 3, Itv.icc 8 9, Itv.icc 4 5, Itv.icc 10 11]⟩ := by decide +kernel

example : resize ⟨2, 2, [Itv.icc (0 : ℚ) 1, Itv.icc 2 3, Itv.icc 4 5, Itv.icc 6 7]⟩ 3 1 = some ⟨3, 1, [Itv.icc 0 1, Itv.icc 2 3, ⊤]⟩ := by decide +kernel

example : ofRows [[Itv.icc (0 : ℚ) 1, Itv.icc 2 3], [Itv.icc 4 5, Itv.icc 6 7]] = some ⟨2, 2, [Itv.icc 0 1, Itv.icc 4 5, Itv.icc 2 3, Itv.icc 6 7]⟩ ∧
    ofRows [[Itv.icc (0 : ℚ) 1], []] = none := by decide +kernel

example : ofLbUb (K := ℚ) ⟨1, 2, [0, 1]⟩ ⟨1, 2, [2, 0]⟩ = some ⟨1, 2, [Itv.icc 0 2, ⊥]⟩ ∧
    neg (IArith.exact ℚ) ⟨1, 2, [Itv.icc 1 2, Itv.icc 0 5]⟩ = some ⟨1, 2, [Itv.icc (-2) (-1), Itv.icc (-5) 0]⟩ ∧
    inflate (IArith.exact ℚ) ⟨1, 1, [Itv.icc 1 2]⟩ 3 = some ⟨1, 1, [Itv.icc (-2) 5]⟩ := by decide +kernel

end Codac.Props
