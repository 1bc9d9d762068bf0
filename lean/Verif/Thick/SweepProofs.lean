import Verif.Thick.Sweep
import Mathlib.Tactic.LinearCombination

/-!
# Lemmas on the sweep test
-/

set_option linter.unusedSectionVars false

namespace Codac.Sweep
variable {K : Type*} [Field K] [LinearOrder K] [IsStrictOrderedRing K]

theorem le0_of_ubLe0 {X : Itv K} (h : ubLe0 X = true) {a : K} (ha : a ∈ X) : a ≤ 0 := by
  match X, h, ha with
  | .mk lo (some b) p, h, ha => simp only [ubLe0, decide_eq_true_eq] at h; exact le_trans ha.2 h

theorem ge0_of_lbGe0 {X : Itv K} (h : lbGe0 X = true) {a : K} (ha : a ∈ X) : 0 ≤ a := by
  match X, h, ha with
  | .mk (some b) hi p, h, ha => simp only [lbGe0, decide_eq_true_eq] at h; exact le_trans h ha.1

theorem ubGe0_of_mem {X : Itv K} {a : K} (ha : a ∈ X) (h0 : 0 ≤ a) : ubGe0 X = true := by
  match X, ha with
  | .mk lo (some b) p, ha => simp only [ubGe0, decide_eq_true_eq]; exact le_trans h0 ha.2
  | .mk lo none p, ha => rfl

/-- the sign of an interval with numbers of both signs is not known -/
theorem getSign_zero {X : Itv K} {a b : K} (ha : a ∈ X) (hb : b ∈ X) (h1 : a < 0) (h2 : 0 < b) : getSign X = .zero := by
  unfold getSign
  rw [if_neg, if_neg]
  · intro h; exact absurd (ge0_of_lbGe0 h ha) (not_le.mpr h1)
  · intro h; exact absurd (le0_of_ubLe0 h hb) (not_le.mpr h2)

theorem getSign_pos {X : Itv K} (h : getSign X = .pos) {a : K} (ha : a ∈ X) : 0 ≤ a := by
  unfold getSign at h
  split at h
  · cases h
  · split at h
    · rename_i h1; exact ge0_of_lbGe0 h1 ha
    · cases h

theorem getSign_neg {X : Itv K} (h : getSign X = .neg) {a : K} (ha : a ∈ X) : a ≤ 0 := by
  unfold getSign at h
  split at h
  · rename_i h1; exact le0_of_ubLe0 h1 ha
  · split at h <;> cases h

/-- the sign of the slice of index `i` -/
def sg (f : List (Itv K)) (i : Nat) : Sgn := getSign (f.getD i .empty)

/-- a range with a change of sign, within the first `n` slices -/
def Change (f : List (Itv K)) (n : Nat) (r : Nat × Nat) : Prop :=
  r.1 + 1 < r.2 ∧ r.2 ≤ n ∧ ((sg f r.1 = .pos ∧ sg f (r.2 - 1) = .neg) ∨ (sg f r.1 = .neg ∧ sg f (r.2 - 1) = .pos))

/-- what the state tells after `i` slices -/
def StOk (f : List (Itv K)) (c : Scan) (i : Nat) : Prop :=
  match c.st with
  | .idle => c.i0 = 0
  | .plus => 0 < i ∧ sg f (i - 1) = .pos
  | .minus => 0 < i ∧ sg f (i - 1) = .neg
  | .zeroPlus => c.i0 + 1 < i + 1 ∧ c.i0 < i ∧ sg f c.i0 = .pos
  | .zeroMinus => c.i0 + 1 < i + 1 ∧ c.i0 < i ∧ sg f c.i0 = .neg

/-- the range under construction, if any -/
def openFrom (c : Scan) : Option Nat :=
  match c.st with
  | .idle | .zeroPlus | .zeroMinus => some c.i0
  | _ => none

/-- invariant of the loop -/
structure ScanOk (f : List (Itv K)) (c : Scan) (i : Nat) : Prop where
  st : StOk f c i
  chg : ∀ r ∈ c.T, Change f i r
  top : ∀ r ∈ c.T2, r.2 ≤ i
  cov : ∀ k < i, sg f k = .zero → (∃ r ∈ c.T ++ c.T2, r.1 ≤ k ∧ k < r.2) ∨ ∃ a, openFrom c = some a ∧ a ≤ k

theorem Change.mono {f : List (Itv K)} {n m : Nat} {r : Nat × Nat} (h : Change f n r) (hm : n ≤ m) : Change f m r :=
  ⟨h.1, le_trans h.2.1 hm, h.2.2⟩

theorem scan_ok (f : List (Itv K)) : ∀ i, ScanOk f (scan f i) i := by
  intro i
  induction i with
  | zero => exact ⟨rfl, (by intro r hr; cases hr), (by intro r hr; cases hr), (by intro k hk; omega)⟩
  | succ i ih =>
    obtain ⟨h1, h2, h3, h4⟩ := ih
    have e : scan f (i + 1) = scanStep (scan f i) i (sg f i) := rfl
    rw [e]
    generalize scan f i = c at h1 h2 h3 h4
    obtain ⟨st, i0, T, T2⟩ := c
    have chg' : ∀ r ∈ T, Change f (i + 1) r := fun r hr => (h2 r hr).mono (Nat.le_succ i)
    have top' : ∀ r ∈ T2, r.2 ≤ i + 1 := fun r hr => le_trans (h3 r hr) (Nat.le_succ i)
    cases st <;> cases hs : sg f i <;> simp only [scanStep, StOk, openFrom] at h1 h4 ⊢
    -- idle, pos
    · refine ⟨⟨Nat.succ_pos i, by simpa using hs⟩, chg', ?_, ?_⟩
      · intro r hr
        split at hr
        · rcases List.mem_append.mp hr with hr | hr
          · exact top' r hr
          · rw [List.mem_singleton] at hr; subst hr; exact le_refl _
        · exact top' r hr
      · intro k hk hz
        left
        by_cases hki : k = i
        · subst hki; rw [hs] at hz; cases hz
        · refine ⟨(i0, i + 1), ?_, by simp only; omega, by simp only; omega⟩
          have : i0 ≠ i := by omega
          simp only [ne_eq, this, not_false_eq_true, if_true]
          simp
    -- idle, zero
    · exact ⟨h1, chg', top', fun k hk hz => Or.inr ⟨i0, rfl, by omega⟩⟩
    -- idle, neg
    · refine ⟨⟨Nat.succ_pos i, by simpa using hs⟩, chg', ?_, ?_⟩
      · intro r hr
        split at hr
        · rcases List.mem_append.mp hr with hr | hr
          · exact top' r hr
          · rw [List.mem_singleton] at hr; subst hr; exact le_refl _
        · exact top' r hr
      · intro k hk hz
        left
        by_cases hki : k = i
        · subst hki; rw [hs] at hz; cases hz
        · refine ⟨(i0, i + 1), ?_, by simp only; omega, by simp only; omega⟩
          have : i0 ≠ i := by omega
          simp only [ne_eq, this, not_false_eq_true, if_true]
          simp
    -- plus, pos
    · refine ⟨⟨Nat.succ_pos i, by simpa using hs⟩, chg', top', ?_⟩
      intro k hk hz
      by_cases hki : k = i
      · subst hki; rw [hs] at hz; cases hz
      · exact (h4 k (by omega) hz)
    -- plus, zero
    · refine ⟨⟨by simp only; omega, by simp only; omega, h1.2⟩, chg', top', ?_⟩
      intro k hk hz
      by_cases hki : k = i
      · exact Or.inr ⟨i - 1, rfl, by omega⟩
      · rcases h4 k (by omega) hz with h | ⟨a, h, _⟩
        · exact Or.inl h
        · cases h
    -- plus, neg
    · refine ⟨⟨Nat.succ_pos i, by simpa using hs⟩, ?_, top', ?_⟩
      · intro r hr
        rcases List.mem_append.mp hr with hr | hr
        · exact chg' r hr
        · rw [List.mem_singleton] at hr; subst hr
          exact ⟨by simp only; omega, le_refl _, Or.inl ⟨h1.2, by simpa using hs⟩⟩
      · intro k hk hz
        by_cases hki : k = i
        · subst hki; rw [hs] at hz; cases hz
        · rcases h4 k (by omega) hz with ⟨r, hr, h⟩ | ⟨a, h, _⟩
          · refine Or.inl ⟨r, ?_, h⟩
            rcases List.mem_append.mp hr with hr | hr <;> simp [hr]
          · cases h
    -- minus, pos
    · refine ⟨⟨Nat.succ_pos i, by simpa using hs⟩, ?_, top', ?_⟩
      · intro r hr
        rcases List.mem_append.mp hr with hr | hr
        · exact chg' r hr
        · rw [List.mem_singleton] at hr; subst hr
          exact ⟨by simp only; omega, le_refl _, Or.inr ⟨h1.2, by simpa using hs⟩⟩
      · intro k hk hz
        by_cases hki : k = i
        · subst hki; rw [hs] at hz; cases hz
        · rcases h4 k (by omega) hz with ⟨r, hr, h⟩ | ⟨a, h, _⟩
          · refine Or.inl ⟨r, ?_, h⟩
            rcases List.mem_append.mp hr with hr | hr <;> simp [hr]
          · cases h
    -- minus, zero
    · refine ⟨⟨by simp only; omega, by simp only; omega, h1.2⟩, chg', top', ?_⟩
      intro k hk hz
      by_cases hki : k = i
      · exact Or.inr ⟨i - 1, rfl, by omega⟩
      · rcases h4 k (by omega) hz with h | ⟨a, h, _⟩
        · exact Or.inl h
        · cases h
    -- minus, neg
    · refine ⟨⟨Nat.succ_pos i, by simpa using hs⟩, chg', top', ?_⟩
      intro k hk hz
      by_cases hki : k = i
      · subst hki; rw [hs] at hz; cases hz
      · exact (h4 k (by omega) hz)
    -- zeroPlus, pos
    · refine ⟨⟨Nat.succ_pos i, by simpa using hs⟩, chg', ?_, ?_⟩
      · intro r hr
        rcases List.mem_append.mp hr with hr | hr
        · exact top' r hr
        · rw [List.mem_singleton] at hr; subst hr; exact le_refl _
      · intro k hk hz
        left
        by_cases hki : k = i
        · subst hki; rw [hs] at hz; cases hz
        · rcases h4 k (by omega) hz with ⟨r, hr, h⟩ | ⟨a, h, h'⟩
          · refine ⟨r, ?_, h⟩
            rcases List.mem_append.mp hr with hr | hr <;> simp [hr]
          · cases h
            exact ⟨(i0, i + 1), by simp, h', hk⟩
    -- zeroPlus, zero
    · refine ⟨⟨by simp only; omega, by simp only; omega, h1.2.2⟩, chg', top', ?_⟩
      intro k hk hz
      by_cases hki : k = i
      · exact Or.inr ⟨i0, rfl, by omega⟩
      · exact h4 k (by omega) hz
    -- zeroPlus, neg
    · refine ⟨⟨Nat.succ_pos i, by simpa using hs⟩, ?_, top', ?_⟩
      · intro r hr
        rcases List.mem_append.mp hr with hr | hr
        · exact chg' r hr
        · rw [List.mem_singleton] at hr; subst hr
          exact ⟨by simp only; omega, le_refl _, Or.inl ⟨h1.2.2, by simpa using hs⟩⟩
      · intro k hk hz
        left
        by_cases hki : k = i
        · subst hki; rw [hs] at hz; cases hz
        · rcases h4 k (by omega) hz with ⟨r, hr, h⟩ | ⟨a, h, h'⟩
          · refine ⟨r, ?_, h⟩
            rcases List.mem_append.mp hr with hr | hr <;> simp [hr]
          · cases h
            exact ⟨(i0, i + 1), by simp, h', hk⟩
    -- zeroMinus, pos
    · refine ⟨⟨Nat.succ_pos i, by simpa using hs⟩, ?_, top', ?_⟩
      · intro r hr
        rcases List.mem_append.mp hr with hr | hr
        · exact chg' r hr
        · rw [List.mem_singleton] at hr; subst hr
          exact ⟨by simp only; omega, le_refl _, Or.inr ⟨h1.2.2, by simpa using hs⟩⟩
      · intro k hk hz
        left
        by_cases hki : k = i
        · subst hki; rw [hs] at hz; cases hz
        · rcases h4 k (by omega) hz with ⟨r, hr, h⟩ | ⟨a, h, h'⟩
          · refine ⟨r, ?_, h⟩
            rcases List.mem_append.mp hr with hr | hr <;> simp [hr]
          · cases h
            exact ⟨(i0, i + 1), by simp, h', hk⟩
    -- zeroMinus, zero
    · refine ⟨⟨by simp only; omega, by simp only; omega, h1.2.2⟩, chg', top', ?_⟩
      intro k hk hz
      by_cases hki : k = i
      · exact Or.inr ⟨i0, rfl, by omega⟩
      · exact h4 k (by omega) hz
    -- zeroMinus, neg
    · refine ⟨⟨Nat.succ_pos i, by simpa using hs⟩, chg', ?_, ?_⟩
      · intro r hr
        rcases List.mem_append.mp hr with hr | hr
        · exact top' r hr
        · rw [List.mem_singleton] at hr; subst hr; exact le_refl _
      · intro k hk hz
        left
        by_cases hki : k = i
        · subst hki; rw [hs] at hz; cases hz
        · rcases h4 k (by omega) hz with ⟨r, hr, h⟩ | ⟨a, h, h'⟩
          · refine ⟨r, ?_, h⟩
            rcases List.mem_append.mp hr with hr | hr <;> simp [hr]
          · cases h
            exact ⟨(i0, i + 1), by simp, h', hk⟩

/-- the ranges with a change of sign do have one -/
theorem zeros_change {f : List (Itv K)} {r : Nat × Nat} (h : r ∈ (extractZeros f).1) : Change f f.length r :=
  (scan_ok f f.length).chg r h

/-- every slice whose sign is not known is in one of the ranges -/
theorem zeros_cover {f : List (Itv K)} {k : Nat} (hk : k < f.length) (h : sg f k = .zero) :
    ∃ r ∈ (extractZeros f).1 ++ (extractZeros f).2, r.1 ≤ k ∧ k < r.2 := by
  have H := scan_ok f f.length
  unfold extractZeros
  generalize scan f f.length = c at H
  obtain ⟨st, i0, T, T2⟩ := c
  rcases H.cov k hk h with ⟨r, hr, h'⟩ | ⟨a, h1, h2⟩
  · refine ⟨r, ?_, h'⟩
    rcases List.mem_append.mp hr with hr | hr
    · exact List.mem_append.mpr (Or.inl hr)
    · refine List.mem_append.mpr (Or.inr ?_)
      simp only at hr ⊢
      split <;> simp [hr]
  · refine ⟨(i0, f.length), ?_, ?_, hk⟩
    · refine List.mem_append.mpr (Or.inr ?_)
      cases st <;> simp [openFrom] at h1 ⊢
    · cases st <;> simp [openFrom] at h1 ⊢ <;> omega

/-- no range goes beyond the sequence -/
theorem zeros_top {f : List (Itv K)} {r : Nat × Nat} (h : r ∈ (extractZeros f).1 ++ (extractZeros f).2) : r.2 ≤ f.length := by
  have H := scan_ok f f.length
  unfold extractZeros at h
  generalize scan f f.length = c at H h
  rcases List.mem_append.mp h with h | h
  · exact (H.chg r h).2.1
  · simp only at h
    split at h
    · rcases List.mem_append.mp h with h | h
      · exact H.top r h
      · rw [List.mem_singleton] at h; subst h; exact le_refl _
    · exact H.top r h

theorem mem_part {α : Type*} {l : List α} {r : Nat × Nat} {k : Nat} (h1 : r.1 ≤ k) (h2 : k < r.2) (hk : k < l.length) : l[k] ∈ part l r := by
  unfold part
  rw [List.mem_iff_getElem?]
  refine ⟨k - r.1, ?_⟩
  rw [List.getElem?_take, if_pos (by omega), List.getElem?_drop]
  have : r.1 + (k - r.1) = k := by omega
  rw [this, List.getElem?_eq_getElem hk]

theorem part_get {α : Type*} {l : List α} {r : Nat × Nat} (k : Nat) (h : r.1 + k < r.2) : (part l r)[k]? = l[r.1 + k]? := by
  unfold part
  rw [List.getElem?_take, if_pos (by omega), List.getElem?_drop]

theorem part_length {α : Type*} {l : List α} {r : Nat × Nat} (h : r.2 ≤ l.length) : (part l r).length = r.2 - r.1 := by
  unfold part; rw [List.length_take, List.length_drop]; omega

/-! ## membership -/

theorem mem_absI {X : Itv K} {a : K} (h : a ∈ X) : |a| ∈ absI X := by
  match X, h with
  | .mk lo hi p, h =>
    simp only [absI]
    split
    · rename_i h0
      rw [abs_of_nonneg (ge0_of_lbGe0 h0 h)]; exact h
    · split
      · rename_i h0
        rw [abs_of_nonpos (le0_of_ubLe0 h0 h)]; exact Itv.mem_neg h
      · rw [Itv.mem_ofBounds]
        refine ⟨abs_nonneg a, ?_⟩
        rw [Itv.leHi_maxHi]
        rcases le_total 0 a with h0 | h0
        · right; rw [abs_of_nonneg h0]; exact h.2
        · left; rw [abs_of_nonpos h0]
          have := h.1
          cases lo <;> simp_all [Itv.negB]

/-- the two quantities at an instant -/
def det (x y ux uy p q : K) : K := ux * (q - y) - uy * (p - x)
/-- the signed distance along the sensor -/
def along (x y ux uy p q : K) : K := ux * (p - x) + uy * (q - y)

theorem v1_mem (A : IArith K) {X : Bx K} {s : Sl K} {x y ux uy p q : K} (hx : x ∈ s.x) (hy : y ∈ s.y) (hu : ux ∈ s.ux) (hv : uy ∈ s.uy)
    (hp : p ∈ X.p) (hq : q ∈ X.q) : det x y ux uy p q ∈ v1Of A X s :=
  A.sub_mem (A.mul_mem hu (A.sub_mem hq hy)) (A.mul_mem hv (A.sub_mem hp hx))

theorem v2_mem (A : IArith K) {X : Bx K} {s : Sl K} {x y ux uy l p q : K} (hx : x ∈ s.x) (hy : y ∈ s.y) (hu : ux ∈ s.ux) (hv : uy ∈ s.uy)
    (hl : l ∈ s.l) (hp : p ∈ X.p) (hq : q ∈ X.q) : l - |along x y ux uy p q| ∈ v2Of A X s :=
  A.sub_mem hl (mem_absI (A.add_mem (A.mul_mem hu (A.sub_mem hp hx)) (A.mul_mem hv (A.sub_mem hq hy))))

/-- two points of the box near `(p,q)` on both sides of the line when `(p,q)` is on the line and not on an edge -/
theorem det_both {x y ux uy p q d : K} (hd : 0 < d) (h0 : det x y ux uy p q = 0) (hu : ux ≠ 0 ∨ uy ≠ 0) :
    ∃ a b a' b' : K, |a - p| ≤ d ∧ |b - q| ≤ d ∧ |a' - p| ≤ d ∧ |b' - q| ≤ d ∧ det x y ux uy a b < 0 ∧ 0 < det x y ux uy a' b' := by
  have hdd : |d| ≤ d := by rw [abs_of_pos hd]
  have hdm : |-d| ≤ d := by rw [abs_neg, abs_of_pos hd]
  have h00 : ∀ w : K, |w - w| ≤ d := by intro w; rw [sub_self, abs_zero]; exact hd.le
  have ed : ∀ w : K, |w + d - w| ≤ d := by intro w; rw [add_sub_cancel_left]; exact hdd
  have em : ∀ w : K, |w - d - w| ≤ d := by intro w; rw [show w - d - w = -d by ring]; exact hdm
  have e1 : det x y ux uy p (q + d) = ux * d := by unfold det at *; linear_combination h0
  have e2 : det x y ux uy p (q - d) = -(ux * d) := by unfold det at *; linear_combination h0
  have e3 : det x y ux uy (p + d) q = -(uy * d) := by unfold det at *; linear_combination h0
  have e4 : det x y ux uy (p - d) q = uy * d := by unfold det at *; linear_combination h0
  rcases hu with hu | hu
  · rcases lt_or_gt_of_ne hu with hu | hu
    · have := mul_neg_of_neg_of_pos hu hd
      exact ⟨p, q + d, p, q - d, h00 p, ed q, h00 p, em q, by rw [e1]; exact this, by rw [e2]; linarith⟩
    · have := mul_pos hu hd
      exact ⟨p, q - d, p, q + d, h00 p, em q, h00 p, ed q, by rw [e2]; linarith, by rw [e1]; exact this⟩
  · rcases lt_or_gt_of_ne hu with hu | hu
    · have := mul_neg_of_neg_of_pos hu hd
      exact ⟨p - d, q, p + d, q, em p, h00 q, ed p, h00 q, by rw [e4]; exact this, by rw [e3]; linarith⟩
    · have := mul_pos hu hd
      exact ⟨p + d, q, p - d, q, ed p, h00 q, em p, h00 q, by rw [e3]; linarith, by rw [e4]; exact this⟩

/-! ## the loop of `fast_test` -/

theorem rangesTest_in {A : IArith K} {X : Bx K} {S : List (Sl K)} {T : List (Nat × Nat)} (h : rangesTest A X S T = none) :
    ∃ r ∈ T, rangeTest A X S r = none := by
  induction T with
  | nil => simp [rangesTest] at h
  | cons r T ih =>
    unfold rangesTest at h
    cases hr : rangeTest A X S r with
    | none => exact ⟨r, by simp, hr⟩
    | some z =>
      rw [hr] at h
      simp only at h
      cases hT : rangesTest A X S T with
      | none => obtain ⟨r', h1, h2⟩ := ih hT; exact ⟨r', by simp [h1], h2⟩
      | some z' => rw [hT] at h; cases h

theorem rangesTest_some {A : IArith K} {X : Bx K} {S : List (Sl K)} {T : List (Nat × Nat)} {T' : List (Nat × Nat)} {n : Nat}
    (h : rangesTest A X S T = some (T', n)) {r : Nat × Nat} (hr : r ∈ T) :
    ∃ t o, rangeTest A X S r = some (t, o) ∧ (∀ z ∈ t, z ∈ T') ∧ (n = 0 → o = true) := by
  induction T generalizing T' n with
  | nil => cases hr
  | cons a T ih =>
    unfold rangesTest at h
    cases ha : rangeTest A X S a with
    | none => rw [ha] at h; cases h
    | some z =>
      obtain ⟨t, o⟩ := z
      rw [ha] at h
      simp only at h
      cases hT : rangesTest A X S T with
      | none => rw [hT] at h; cases h
      | some z' =>
        obtain ⟨t', m⟩ := z'
        rw [hT] at h
        simp only [Option.some.injEq, Prod.mk.injEq] at h
        obtain ⟨e1, e2⟩ := h
        rcases List.mem_cons.mp hr with rfl | hr
        · refine ⟨t, o, ha, ?_, ?_⟩
          · intro z hz; rw [← e1]; simp [hz]
          · intro hn; rw [hn] at e2; cases o
            · simp at e2
            · rfl
        · obtain ⟨t1, o1, h1, h2, h3⟩ := ih hT hr
          refine ⟨t1, o1, h1, ?_, ?_⟩
          · intro z hz; rw [← e1]; simp [h2 z hz]
          · intro hn; apply h3; rw [hn] at e2; cases o
            · simp at e2
            · simpa using e2

/-- a range which is not inside: its slices of unknown sign are in the new ranges, and where the sign is unknown the second quantity is negative when the range
is out -/
theorem rangeTest_some {A : IArith K} {X : Bx K} {S : List (Sl K)} {r : Nat × Nat} {t : List (Nat × Nat)} {o : Bool}
    (h : rangeTest A X S r = some (t, o)) {i : Nat} (h1 : r.1 ≤ i) (h2 : i < r.2) {s : Sl K} (hs : S[i]? = some s)
    (hz : getSign (v1Of A X s) = .zero) :
    (∃ z ∈ t, z.1 ≤ i ∧ i < z.2) ∧ (o = true → ubGe0 (v2Of A X s) = false) := by
  unfold rangeTest at h
  simp only at h
  split at h
  · cases h
  simp only [Option.some.injEq, Prod.mk.injEq] at h
  obtain ⟨e1, e2⟩ := h
  have hp : (part S r)[i - r.1]? = some s := by
    rw [part_get (i - r.1) (by omega)]
    have : r.1 + (i - r.1) = i := by omega
    rw [this]; exact hs
  have hlt : i - r.1 < (part S r).length := (List.getElem?_eq_some_iff.mp hp).1
  have hsg : sg ((part S r).map (v1Of A X)) (i - r.1) = .zero := by
    unfold sg; rw [List.getD_eq_getElem?_getD, List.getElem?_map, hp]; exact hz
  obtain ⟨z, hz1, hz2, hz3⟩ := zeros_cover (by rw [List.length_map]; exact hlt) hsg
  refine ⟨⟨(z.1 + r.1, z.2 + r.1), ?_, by simp only; omega, by simp only; omega⟩, ?_⟩
  · rw [← e1]; exact List.mem_map.mpr ⟨z, hz1, rfl⟩
  · intro ho
    rw [ho] at e2
    unfold isOutside at e2
    rw [List.all_eq_true] at e2
    have e3 := e2 z hz1
    rw [List.all_eq_true] at e3
    have hm := mem_part (l := (part S r).map (v2Of A X)) hz2 hz3 (by rw [List.length_map]; exact hlt)
    rw [List.getElem_map] at hm
    have e4 := e3 _ hm
    have e5 : (part S r)[i - r.1] = s := by
      have := List.getElem?_eq_getElem hlt
      rw [hp] at this; exact (Option.some.inj this).symm
    rw [e5] at e4
    simpa using e4

/-- a range which is inside: two slices where the sign differs, and the second quantity nonnegative between them -/
theorem rangeTest_none {A : IArith K} {X : Bx K} {S : List (Sl K)} {r : Nat × Nat} (hr : r.2 ≤ S.length) (h : rangeTest A X S r = none) :
    ∃ a b : Nat, r.1 ≤ a ∧ a < b ∧ b < r.2 ∧
      (∀ k : Nat, a ≤ k → k ≤ b → ∀ s : Sl K, S[k]? = some s → lbGe0 (v2Of A X s) = true) ∧
      ∀ s s' : Sl K, S[a]? = some s → S[b]? = some s' →
        (getSign (v1Of A X s) = .pos ∧ getSign (v1Of A X s') = .neg) ∨ (getSign (v1Of A X s) = .neg ∧ getSign (v1Of A X s') = .pos) := by
  unfold rangeTest at h
  simp only at h
  split at h
  · rename_i hc
    have h2 := hc.2
    unfold isInside at h2
    rw [List.any_eq_true] at h2
    obtain ⟨z, hz1, hz2⟩ := h2
    obtain ⟨c1, c2, c3⟩ := zeros_change hz1
    rw [List.all_eq_true] at hz2
    rw [List.length_map, part_length hr] at c2
    have get : ∀ k s, S[r.1 + k]? = some s → r.1 + k < r.2 → sg ((part S r).map (v1Of A X)) k = getSign (v1Of A X s) := by
      intro k s hs hk
      unfold sg
      rw [List.getD_eq_getElem?_getD, List.getElem?_map, part_get k hk, hs]; rfl
    refine ⟨r.1 + z.1, r.1 + (z.2 - 1), by omega, by omega, by omega, ?_, ?_⟩
    · intro k hk1 hk2 s hs
      have hp : (part S r)[k - r.1]? = some s := by
        rw [part_get (k - r.1) (by omega)]
        have : r.1 + (k - r.1) = k := by omega
        rw [this]; exact hs
      have hlt : k - r.1 < (part S r).length := (List.getElem?_eq_some_iff.mp hp).1
      have hm := mem_part (l := (part S r).map (v2Of A X)) (r := z) (k := k - r.1) (by omega) (by omega) (by rw [List.length_map]; exact hlt)
      rw [List.getElem_map] at hm
      have e5 : (part S r)[k - r.1] = s := by
        have := List.getElem?_eq_getElem hlt
        rw [hp] at this; exact (Option.some.inj this).symm
      rw [e5] at hm
      exact hz2 _ hm
    · intro s s' hs hs'
      rw [get z.1 s hs (by omega), get (z.2 - 1) s' hs' (by omega)] at c3
      exact c3
  · cases h

end Codac.Sweep
