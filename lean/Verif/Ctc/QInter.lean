import Verif.Ctc.Boxes
import Mathlib.Data.List.Sort
import Mathlib.Data.Prod.Lex
import Mathlib.Order.WithBot
import Mathlib.Algebra.BigOperators.Group.List.Basic

/-!
# Dimension-wise q-intersection

Source: `src/core/separators/codac_QInterProjF.cpp`.
-/

set_option linter.unusedSectionVars false

namespace Codac

variable {K : Type*} [LinearOrder K]

/-- bounds of intervals: `-∞`, a number or `+∞` -/
abbrev EBnd (K : Type*) := WithBot (WithTop K)

/-- `Interval::lb` (IBEX) -/
def extLo : Option K → EBnd K
  | none => ⊥
  | some a => ((a : WithTop K) : EBnd K)

/-- `Interval::ub` (IBEX) -/
def extHi : Option K → EBnd K
  | none => ⊤
  | some a => ((a : WithTop K) : EBnd K)

/-- the lower bound given to the constructor `Interval(lb,ub)`; `+∞` is not reachable -/
def ofLo : EBnd K → Option K
  | some (some a) => some a
  | _ => none

/-- the upper bound given to the constructor `Interval(lb,ub)`; `-∞` is not reachable -/
def ofHi : EBnd K → Option K
  | some (some a) => some a
  | _ => none

namespace QInter

/-- a bound with its side (`false`: `PROJ_LEFT_BOUND`, `true`: `PROJ_RIGHT_BOUND`), ordered by `paircomp`, codac_QInterProjF.cpp:16-19 -/
abbrev Entry (K : Type*) [LinearOrder K] := Lex (EBnd K × Bool)

/-- the array `x` before sorting, codac_QInterProjF.cpp:88-91. Empty intervals have no bounds: they are dropped here, and excluded in
the theorems -/
def entries (Is : List (Itv K)) : List (Entry K) :=
  Is.flatMap fun I =>
    match I with
    | .empty => []
    | .mk lo hi _ => [toLex (extLo lo, false), toLex (extHi hi, true)]

/-- the sorted array, codac_QInterProjF.cpp:93 -/
def sorted (Is : List (Itv K)) : List (Entry K) := (entries Is).insertionSort (· ≤ ·)

/-- a scan of the array, codac_QInterProjF.cpp:96-104 and 112-119: the first bound at which the counter reaches `q` -/
def scan (q : Int) (side : Bool) : Int → List (Entry K) → Option (EBnd K)
  | _, [] => none
  | c, e :: es =>
    let c' := if (ofLex e).2 = side then c + 1 else c - 1
    if c' = q then some (ofLex e).1 else scan q side c' es

/-- one dimension, codac_QInterProjF.cpp:84-122: `none` when the variable `rb0` is used without a value, `some none` when the result is
emptied -/
def dim (q : Int) (Is : List (Itv K)) : Option (Option (Itv K)) :=
  match scan q false 0 (sorted Is) with
  | none => some none
  | some l =>
    if l = ⊤ then some none
    else
      match scan q true 0 (sorted Is).reverse with
      | none => none
      | some r => some (some (.ofBounds (ofLo l) (ofHi r)))

/-- the components `i` of the boxes -/
def column (i : Nat) (bs : List (Box K)) : List (Itv K) := bs.map fun b => b.getD i ⊤

/-- the loop over the dimensions, codac_QInterProjF.cpp:84-122 (with its `break`) -/
def dims (q : Int) (bs : List (Box K)) : List Nat → Option (Option (Box K))
  | [] => some (some [])
  | i :: is =>
    match dim q (column i bs) with
    | none => none
    | some none => some none
    | some (some I) => (dims q bs is).map (Option.map (I :: ·))

end QInter

/-- `qinter_projf`, codac_QInterProjF.cpp:57-126; `none`: an assertion fails, or `rb0` is used without a value -/
def qinter (q : Int) (boxes : List (Box K)) : Option (Box K) :=
  match boxes with
  | [] => none
  | b :: _ =>
    if 0 < q then
      let bs := boxes.filter fun X => !X.isEmpty
      if bs.isEmpty then some (Box.empty b.length)
      else (QInter.dims q bs (List.range b.length)).map fun r => r.getD (Box.empty b.length)
    else none

/-- `CtcQInterProjF::contract`, codac_QInterProjF.cpp:23-33 -/
def ctcQInter (q : Int) (cs : List (Box K → Box K)) (box : Box K) : Option (Box K) := qinter q (cs.map fun c => c box)

/-- `SepQInterProjF::separate`, codac_QInterProjF.cpp:35-53 -/
def sepQInter (q : Nat) (ss : List (Box K → Box K → Box K × Box K)) (xin xout : Box K) : Option (Box K × Box K) :=
  (qinter ((q : Int) + 1) (ss.map fun s => (s xin xout).1)).bind fun a =>
    (qinter ((ss.length : Int) - q) (ss.map fun s => (s xin xout).2)).map fun b => (xin.inter a, xout.inter b)

/-! ### One dimension -/

namespace QInter

/-- a bound inside an interval -/
def memE (w : EBnd K) (I : Itv K) : Bool :=
  match I with
  | .empty => false
  | .mk lo hi _ => decide (extLo lo ≤ w) && decide (w ≤ extHi hi)

theorem extLo_le_coe {lo : Option K} {v : K} : extLo lo ≤ ((v : WithTop K) : EBnd K) ↔ loLe lo v := by
  cases lo <;> simp [extLo]

theorem coe_le_extHi {hi : Option K} {v : K} : ((v : WithTop K) : EBnd K) ≤ extHi hi ↔ leHi v hi := by
  cases hi with
  | none => simp [extHi]
  | some a => simp [extHi]

theorem memE_coe {v : K} {I : Itv K} : memE ((v : WithTop K) : EBnd K) I = true ↔ v ∈ I := by
  cases I with
  | empty => simp [memE]
  | mk lo hi h => simp [memE, extLo_le_coe, coe_le_extHi]

theorem extLo_le_extHi {lo hi : Option K} (h : bLe lo hi) : extLo lo ≤ extHi hi := by
  cases lo with
  | none => simp [extLo]
  | some a =>
    rw [extLo, coe_le_extHi]
    cases hi with
    | none => trivial
    | some b => exact h

theorem extLo_ne_top (lo : Option K) : extLo lo ≠ ⊤ := by
  cases lo with
  | none => simp [extLo]
  | some a => exact fun h => WithTop.coe_ne_top (WithBot.coe_injective h)

theorem extHi_ne_bot (hi : Option K) : extHi hi ≠ ⊥ := by
  cases hi with
  | none => simp [extHi]
  | some a => exact WithBot.coe_ne_bot

/-- signed number of bounds -/
def tot (side : Bool) (l : List (Entry K)) : Int := (l.map fun e => if (ofLex e).2 = side then (1 : Int) else -1).sum

@[simp] theorem tot_nil (side : Bool) : tot side ([] : List (Entry K)) = 0 := rfl
@[simp] theorem tot_cons (side : Bool) (e : Entry K) (l : List (Entry K)) :
    tot side (e :: l) = (if (ofLex e).2 = side then 1 else -1) + tot side l := rfl
@[simp] theorem tot_append (side : Bool) (l m : List (Entry K)) : tot side (l ++ m) = tot side l + tot side m := by
  simp [tot]

theorem tot_perm {side : Bool} {l m : List (Entry K)} (h : l.Perm m) : tot side l = tot side m := (h.map _).sum_eq

/-- the scan stops inside a prefix of sum at least `q` -/
theorem scan_find {q : Int} {side : Bool} (P R : List (Entry K)) (c : Int) (hc : c < q) (h : q ≤ c + tot side P) :
    ∃ e ∈ P, scan q side c (P ++ R) = some (ofLex e).1 := by
  induction P generalizing c with
  | nil => simp at h; omega
  | cons e P ih =>
    rw [List.cons_append, scan]
    rw [tot_cons] at h
    by_cases hs : (ofLex e).2 = side
    · simp only [hs, if_true] at h ⊢
      by_cases hq : c + 1 = q
      · exact ⟨e, by simp, by rw [if_pos hq]⟩
      · rw [if_neg hq]
        obtain ⟨e', h1, h2⟩ := ih (c + 1) (by omega) (by omega)
        exact ⟨e', List.mem_cons_of_mem _ h1, h2⟩
    · simp only [hs, if_false] at h ⊢
      rw [if_neg (by omega)]
      obtain ⟨e', h1, h2⟩ := ih (c - 1) (by omega) (by omega)
      exact ⟨e', List.mem_cons_of_mem _ h1, h2⟩

/-- where the scan stops -/
theorem scan_some {q : Int} {side : Bool} {l : List (Entry K)} {c : Int} (hc : c < q) {w : EBnd K}
    (h : scan q side c l = some w) :
    ∃ P R, l = P ++ toLex (w, side) :: R ∧ c + tot side P + 1 = q := by
  induction l generalizing c with
  | nil => simp [scan] at h
  | cons e l ih =>
    rw [scan] at h
    by_cases hs : (ofLex e).2 = side
    · simp only [hs, if_true] at h
      by_cases hq : c + 1 = q
      · rw [if_pos hq] at h
        refine ⟨[], l, ?_, by simpa using hq⟩
        simp only [Option.some.injEq] at h
        have : e = toLex (w, side) := by
          rw [← h, ← hs]; rfl
        rw [this]; rfl
      · rw [if_neg hq] at h
        obtain ⟨P, R, h1, h2⟩ := ih (by omega) h
        refine ⟨e :: P, R, by rw [h1]; rfl, ?_⟩
        rw [tot_cons, if_pos hs]; omega
    · simp only [hs, if_false] at h
      rw [if_neg (by omega)] at h
      obtain ⟨P, R, h1, h2⟩ := ih (by omega) h
      refine ⟨e :: P, R, by rw [h1]; rfl, ?_⟩
      rw [tot_cons, if_neg hs]; omega

/-- number of intervals with a value -/
def cnt (w : EBnd K) (Is : List (Itv K)) : Nat := Is.countP (memE w)

theorem le_left {e : Entry K} {w : EBnd K} :
    e ≤ toLex (w, false) ↔ (ofLex e).1 < w ∨ ((ofLex e).1 = w ∧ (ofLex e).2 = false) := by
  have hb : ∀ b : Bool, b ≤ false ↔ b = false := by decide
  rw [Prod.Lex.le_iff, ofLex_toLex, hb]

theorem right_le {e : Entry K} {w : EBnd K} :
    toLex (w, true) ≤ e ↔ w < (ofLex e).1 ∨ ((ofLex e).1 = w ∧ (ofLex e).2 = true) := by
  rw [Prod.Lex.le_iff]
  simp only [ofLex_toLex]
  constructor
  · rintro (h | ⟨h1, h2⟩)
    · exact .inl h
    · exact .inr ⟨h1.symm, by cases h3 : (ofLex e).2 with
        | true => rfl
        | false => rw [h3] at h2; exact absurd h2 (by decide)⟩
  · rintro (h | ⟨h1, h2⟩)
    · exact .inl h
    · exact .inr ⟨h1.symm, by rw [h2]⟩

theorem tot_left (Is : List (Itv K)) (w : EBnd K) :
    tot false ((entries Is).filter fun e => decide (e ≤ toLex (w, false))) = cnt w Is := by
  induction Is with
  | nil => rfl
  | cons I Is ih =>
    have hE : entries (I :: Is) = entries [I] ++ entries Is := by simp [entries]
    rw [hE, List.filter_append, tot_append, ih, cnt, cnt, List.countP_cons]
    cases I with
    | empty => simp [entries, memE]
    | mk lo hi h =>
      have hle := extLo_le_extHi h
      simp only [entries, List.flatMap_cons, List.flatMap_nil, List.append_nil, memE, List.filter_cons, List.filter_nil,
        decide_eq_true_eq, le_left, ofLex_toLex, Bool.true_eq_false, and_false, or_false, and_true, Bool.and_eq_true]
      by_cases h1 : extLo lo ≤ w
      · by_cases h2 : w ≤ extHi hi
        · rw [if_pos (lt_or_eq_of_le h1), if_neg (not_lt.mpr h2), if_pos ⟨h1, h2⟩]
          simp; omega
        · rw [if_pos (lt_or_eq_of_le h1), if_pos (not_le.mp h2), if_neg (fun h => h2 h.2)]
          simp
      · have h3 : ¬ extHi hi < w := fun h => h1 (hle.trans h.le)
        rw [if_neg (fun h => h1 (le_of_lt_or_eq h)), if_neg h3, if_neg (fun h => h1 h.1)]
        simp

theorem tot_right (Is : List (Itv K)) (w : EBnd K) :
    tot true ((entries Is).filter fun e => decide (toLex (w, true) ≤ e)) = cnt w Is := by
  induction Is with
  | nil => rfl
  | cons I Is ih =>
    have hE : entries (I :: Is) = entries [I] ++ entries Is := by simp [entries]
    rw [hE, List.filter_append, tot_append, ih, cnt, cnt, List.countP_cons]
    cases I with
    | empty => simp [entries, memE]
    | mk lo hi h =>
      have hle := extLo_le_extHi h
      simp only [entries, List.flatMap_cons, List.flatMap_nil, List.append_nil, memE, List.filter_cons, List.filter_nil,
        decide_eq_true_eq, right_le, ofLex_toLex, Bool.false_eq_true, and_false, or_false, and_true, Bool.and_eq_true]
      by_cases h1 : w ≤ extHi hi
      · by_cases h2 : extLo lo ≤ w
        · rw [if_neg (not_lt.mpr h2), if_pos ((lt_or_eq_of_le h1).imp id Eq.symm), if_pos ⟨h2, h1⟩]
          simp; omega
        · rw [if_pos (not_le.mp h2), if_pos ((lt_or_eq_of_le h1).imp id Eq.symm), if_neg (fun h => h2 h.1)]
          simp
      · have h3 : ¬ w < extLo lo := fun h => h1 (h.le.trans hle)
        rw [if_neg h3, if_neg (fun h => h1 (le_of_lt_or_eq (h.imp id Eq.symm))), if_neg (fun h => h1 h.2)]
        simp

/-- a list sorted for `r` is cut in two by a predicate which is closed downwards -/
theorem filter_append_of_sorted {α : Type*} {r : α → α → Prop} {l : List α} (hl : l.Pairwise r) (p : α → Bool)
    (hp : ∀ a b, r a b → p b = true → p a = true) : l = l.filter p ++ l.filter (fun a => !p a) := by
  induction l with
  | nil => rfl
  | cons a l ih =>
    rw [List.pairwise_cons] at hl
    by_cases ha : p a = true
    · rw [List.filter_cons_of_pos ha, List.filter_cons_of_neg (by simpa using ha), List.cons_append, ← ih hl.2]
    · have h0 : ∀ b ∈ a :: l, ¬ p b = true := by
        intro b hb hpb
        rcases List.mem_cons.mp hb with rfl | hb
        · exact ha hpb
        · exact ha (hp a b (hl.1 b hb) hpb)
      rw [List.filter_eq_nil_iff.mpr h0, List.nil_append, List.filter_eq_self.mpr]
      intro b hb
      simpa using h0 b hb

theorem sorted_pairwise (Is : List (Itv K)) : (sorted Is).Pairwise (· ≤ ·) := List.pairwise_insertionSort _ _

theorem sorted_perm (Is : List (Itv K)) : (sorted Is).Perm (entries Is) := List.perm_insertionSort _ _

/-- the left scan finds a bound below every value of at least `q` intervals -/
theorem left_find {q : Int} (hq : 0 < q) {Is : List (Itv K)} {w : EBnd K} (h : q ≤ cnt w Is) :
    ∃ l, scan q false 0 (sorted Is) = some l ∧ l ≤ w := by
  have hs := filter_append_of_sorted (sorted_pairwise Is) (fun e => decide (e ≤ toLex (w, false)))
    (fun a b hab hb => by simp only [decide_eq_true_eq] at *; exact hab.trans hb)
  have ht : tot false ((sorted Is).filter fun e => decide (e ≤ toLex (w, false))) = cnt w Is := by
    rw [tot_perm ((sorted_perm Is).filter _), tot_left]
  obtain ⟨e, he, h1⟩ := scan_find (q := q) (side := false) _ ((sorted Is).filter fun e => !decide (e ≤ toLex (w, false))) 0 hq
    (by rw [ht]; simpa using h)
  rw [← hs] at h1
  refine ⟨_, h1, ?_⟩
  have := (List.mem_filter.mp he).2
  rw [decide_eq_true_eq, le_left] at this
  rcases this with h | h
  · exact h.le
  · exact h.1.le

theorem right_find {q : Int} (hq : 0 < q) {Is : List (Itv K)} {w : EBnd K} (h : q ≤ cnt w Is) :
    ∃ r, scan q true 0 (sorted Is).reverse = some r ∧ w ≤ r := by
  have hr : (sorted Is).reverse.Pairwise (· ≥ ·) := List.pairwise_reverse.mpr (sorted_pairwise Is)
  have hs := filter_append_of_sorted hr (fun e => decide (toLex (w, true) ≤ e))
    (fun a b hab hb => by simp only [decide_eq_true_eq] at *; exact le_trans hb hab)
  have ht : tot true ((sorted Is).reverse.filter fun e => decide (toLex (w, true) ≤ e)) = cnt w Is := by
    rw [tot_perm (((List.reverse_perm _).trans (sorted_perm Is)).filter _), tot_right]
  obtain ⟨e, he, h1⟩ := scan_find (q := q) (side := true) _
    ((sorted Is).reverse.filter fun e => !decide (toLex (w, true) ≤ e)) 0 hq (by rw [ht]; simpa using h)
  rw [← hs] at h1
  refine ⟨_, h1, ?_⟩
  have := (List.mem_filter.mp he).2
  rw [decide_eq_true_eq, right_le] at this
  rcases this with h | h
  · exact h.le
  · exact h.1.ge

theorem tot_const {side : Bool} {l : List (Entry K)} (h : ∀ e ∈ l, (ofLex e).2 = side) : tot side l = l.length := by
  induction l with
  | nil => rfl
  | cons e l ih =>
    rw [tot_cons, if_pos (h e (by simp)), ih fun e' he => h e' (List.mem_cons_of_mem _ he)]
    simp; omega

/-- the bound found by the left scan is itself in at least `q` intervals -/
theorem left_exact {q : Int} (hq : 0 < q) {Is : List (Itv K)} {l : EBnd K} (h : scan q false 0 (sorted Is) = some l) :
    q ≤ cnt l Is ∧ l ≠ ⊤ := by
  obtain ⟨P, R, h1, h2⟩ := scan_some hq h
  have hp := sorted_pairwise Is
  rw [h1, List.pairwise_append, List.pairwise_cons] at hp
  obtain ⟨_, ⟨hR, _⟩, hPR⟩ := hp
  constructor
  · rw [← tot_left, ← tot_perm ((sorted_perm Is).filter _), h1, List.filter_append, tot_append,
      List.filter_eq_self.mpr (fun e he => by simpa using hPR e he _ (by simp)), List.filter_cons_of_pos (by simp), tot_cons,
      tot_const (l := R.filter _)]
    · simp; omega
    · intro e he
      have h3 := (List.mem_filter.mp he).2
      have h4 := hR e (List.mem_filter.mp he).1
      simp only [decide_eq_true_eq] at h3
      rw [le_antisymm h3 h4]
      rfl
  · have hm : toLex (l, false) ∈ entries Is := (sorted_perm Is).subset (by rw [h1]; simp)
    simp only [entries, List.mem_flatMap] at hm
    obtain ⟨I, _, hI⟩ := hm
    cases I with
    | empty => simp at hI
    | mk lo hi p =>
      simp only [List.mem_cons, List.not_mem_nil, or_false, EmbeddingLike.apply_eq_iff_eq, Prod.mk.injEq, Bool.false_eq_true,
        and_false, and_true] at hI
      rw [hI]
      exact extLo_ne_top lo

theorem right_exact {q : Int} (hq : 0 < q) {Is : List (Itv K)} {r : EBnd K} (h : scan q true 0 (sorted Is).reverse = some r) :
    q ≤ cnt r Is ∧ r ≠ ⊥ := by
  obtain ⟨P, R, h1, h2⟩ := scan_some hq h
  have hp : (sorted Is).reverse.Pairwise (· ≥ ·) := List.pairwise_reverse.mpr (sorted_pairwise Is)
  have hperm := (List.reverse_perm (sorted Is)).trans (sorted_perm Is)
  rw [h1, List.pairwise_append, List.pairwise_cons] at hp
  obtain ⟨_, ⟨hR, _⟩, hPR⟩ := hp
  constructor
  · rw [← tot_right, ← tot_perm (hperm.filter _), h1, List.filter_append, tot_append,
      List.filter_eq_self.mpr (fun e he => by simpa using hPR e he _ (by simp)), List.filter_cons_of_pos (by simp), tot_cons,
      tot_const (l := R.filter _)]
    · simp; omega
    · intro e he
      have h3 := (List.mem_filter.mp he).2
      have h4 := hR e (List.mem_filter.mp he).1
      simp only [decide_eq_true_eq] at h3
      rw [le_antisymm h4 h3]
      rfl
  · have hm : toLex (r, true) ∈ entries Is := hperm.subset (by rw [h1]; simp)
    simp only [entries, List.mem_flatMap] at hm
    obtain ⟨I, _, hI⟩ := hm
    cases I with
    | empty => simp at hI
    | mk lo hi p =>
      simp only [List.mem_cons, List.not_mem_nil, or_false, EmbeddingLike.apply_eq_iff_eq, Prod.mk.injEq, Bool.true_eq_false,
        and_false, and_true, false_or] at hI
      rw [hI]
      exact extHi_ne_bot hi

theorem extLo_ofLo {l : EBnd K} (h : l ≠ ⊤) : extLo (ofLo l) = l := by
  match l with
  | ⊥ => rfl
  | ((a : K) : WithTop K) => rfl
  | ((⊤ : WithTop K) : EBnd K) => exact absurd rfl h

theorem extHi_ofHi {l : EBnd K} (h : l ≠ ⊥) : extHi (ofHi l) = l := by
  match l with
  | ⊥ => exact absurd rfl h
  | ((a : K) : WithTop K) => rfl
  | ((⊤ : WithTop K) : EBnd K) => rfl

theorem bLe_of_ext {lo hi : Option K} (h : extLo lo ≤ extHi hi) : bLe lo hi := by
  cases lo with
  | none => simp
  | some a =>
    rw [extLo, coe_le_extHi] at h
    cases hi with
    | none => simp
    | some b => exact h

/-- The result in one dimension. Either no value is in `q` intervals and the result is empty, or the result is the hull of the values
which are in at least `q` intervals: its bounds are such values. -/
theorem dim_spec {q : Int} (hq : 0 < q) (Is : List (Itv K)) :
    (dim q Is = some none ∧ ∀ w, ¬ q ≤ cnt w Is) ∨
    ∃ lo hi p, dim q Is = some (some (.mk lo hi p)) ∧ q ≤ cnt (extLo lo) Is ∧ q ≤ cnt (extHi hi) Is ∧
      ∀ w, q ≤ cnt w Is → extLo lo ≤ w ∧ w ≤ extHi hi := by
  unfold dim
  cases hl : scan q false 0 (sorted Is) with
  | none =>
    left
    refine ⟨rfl, fun w hw => ?_⟩
    obtain ⟨l, h1, _⟩ := left_find hq hw
    rw [hl] at h1
    cases h1
  | some l =>
    obtain ⟨h1, h2⟩ := left_exact hq hl
    obtain ⟨r, hr, hle⟩ := right_find hq h1
    obtain ⟨h3, h4⟩ := right_exact hq hr
    right
    have hb : bLe (ofLo l) (ofHi r) := bLe_of_ext (by rw [extLo_ofLo h2, extHi_ofHi h4]; exact hle)
    refine ⟨ofLo l, ofHi r, hb, ?_, ?_, ?_, ?_⟩
    · simp only [h2, if_false, hr, Itv.ofBounds, dif_pos hb]
    · rwa [extLo_ofLo h2]
    · rwa [extHi_ofHi h4]
    · intro w hw
      rw [extLo_ofLo h2, extHi_ofHi h4]
      obtain ⟨l', h5, h6⟩ := left_find hq hw
      obtain ⟨r', h7, h8⟩ := right_find hq hw
      rw [hl] at h5
      rw [hr] at h7
      cases h5
      cases h7
      exact ⟨h6, h8⟩

theorem mk_le_of_ext {lo hi lo' hi' : Option K} {p p'} (h1 : extLo lo' ≤ extLo lo) (h2 : extHi hi ≤ extHi hi') :
    (Itv.mk lo hi p : Itv K) ≤ .mk lo' hi' p' := by
  rw [Itv.le_mk_mk]
  constructor
  · cases lo' with
    | none => cases lo <;> trivial
    | some a =>
      cases lo with
      | none => exact absurd (le_bot_iff.mp h1) WithBot.coe_ne_bot
      | some b => exact extLo_le_coe.mp h1
  · cases hi' with
    | none => cases hi <;> trivial
    | some a =>
      cases hi with
      | none => exact absurd (WithBot.coe_injective (top_le_iff.mp h2)) WithTop.coe_ne_top
      | some b => exact coe_le_extHi.mp h2

theorem ext_of_mk_le {lo hi lo' hi' : Option K} {p p'} (h : (Itv.mk lo hi p : Itv K) ≤ .mk lo' hi' p') :
    extLo lo' ≤ extLo lo ∧ extHi hi ≤ extHi hi' := by
  rw [Itv.le_mk_mk] at h
  constructor
  · cases lo' with
    | none => exact bot_le
    | some a =>
      cases lo with
      | none => exact absurd h.1 (fun h => h)
      | some b => exact extLo_le_coe.mpr h.1
  · cases hi' with
    | none => exact le_top
    | some a =>
      cases hi with
      | none => exact absurd h.2 (fun h => h)
      | some b => exact coe_le_extHi.mpr h.2

theorem memE_of_le {w : EBnd K} {I J : Itv K} (h : I ≤ J) (hw : memE w I = true) : memE w J = true := by
  cases I with
  | empty => simp [memE] at hw
  | mk lo hi p =>
    cases J with
    | empty => exact absurd h Itv.not_mk_le_empty
    | mk lo' hi' p' =>
      obtain ⟨h1, h2⟩ := ext_of_mk_le h
      simp only [memE, Bool.and_eq_true, decide_eq_true_eq] at hw ⊢
      exact ⟨h1.trans hw.1, hw.2.trans h2⟩

theorem exists_of_cnt {q : Int} (hq : 0 < q) {w : EBnd K} {Is : List (Itv K)} (h : q ≤ cnt w Is) : ∃ I ∈ Is, memE w I = true :=
  List.countP_pos_iff.mp (show 0 < cnt w Is by omega)

/-- the result in one dimension is inside every interval containing all the intervals -/
theorem dim_le {q : Int} (hq : 0 < q) {Is : List (Itv K)} {I J : Itv K} (h : dim q Is = some (some I)) (hJ : ∀ X ∈ Is, X ≤ J) :
    I ≤ J := by
  rcases dim_spec hq Is with h1 | ⟨lo, hi, p, h1, h2, h3, _⟩
  · rw [h] at h1; simp at h1
  · rw [h] at h1
    simp only [Option.some.injEq] at h1
    subst h1
    obtain ⟨X, hX, h4⟩ := exists_of_cnt hq h2
    obtain ⟨Y, hY, h5⟩ := exists_of_cnt hq h3
    have h6 := memE_of_le (hJ X hX) h4
    have h7 := memE_of_le (hJ Y hY) h5
    cases J with
    | empty => simp [memE] at h6
    | mk lo' hi' p' =>
      simp only [memE, Bool.and_eq_true, decide_eq_true_eq] at h6 h7
      exact mk_le_of_ext h6.1 h7.2

/-! ### Boxes -/

theorem dims_ne_none {q : Int} (hq : 0 < q) (bs : List (Box K)) (is : List Nat) : dims q bs is ≠ none := by
  induction is with
  | nil => simp [dims]
  | cons i is ih =>
    rw [dims]
    rcases dim_spec hq (column i bs) with h | ⟨lo, hi, p, h, _⟩
    · rw [h.1]; simp
    · rw [h]; simpa using ih

theorem dims_some {q : Int} {bs : List (Box K)} {is : List Nat} {X : Box K} (h : dims q bs is = some (some X)) :
    List.Forall₂ (fun i I => dim q (column i bs) = some (some I)) is X := by
  induction is generalizing X with
  | nil => simp [dims] at h; subst h; exact .nil
  | cons i is ih =>
    rw [dims] at h
    match hd : dim q (column i bs), h with
    | none, h => cases h
    | some none, h => simp at h
    | some (some I), h =>
      simp only [Option.map_eq_some_iff] at h
      obtain ⟨r, h1, Y, h2, h3⟩ := h
      subst h2
      subst h3
      exact .cons hd (ih h1)

/-- a point of at least `q` boxes is kept -/
theorem dims_keeps {q : Int} (hq : 0 < q) {bs L : List (Box K)} (hL : L.Sublist bs) (hlen : q ≤ L.length) {v : List K}
    (hv : ∀ X ∈ L, InBox v X) (is : List Nat) (his : ∀ i ∈ is, i < v.length) :
    ∃ X, dims q bs is = some (some X) ∧ List.Forall₂ (fun i I => ∃ a, v[i]? = some a ∧ a ∈ I) is X := by
  induction is with
  | nil => exact ⟨[], rfl, .nil⟩
  | cons i is ih =>
    obtain ⟨X, h1, h2⟩ := ih fun j hj => his j (List.mem_cons_of_mem _ hj)
    have hi : i < v.length := his i (by simp)
    have hc : q ≤ cnt (((v[i]) : WithTop K) : EBnd K) (column i bs) := by
      have h3 : (column i L).Sublist (column i bs) := hL.map _
      have h4 : cnt (((v[i]) : WithTop K) : EBnd K) (column i L) = (column i L).length := by
        rw [cnt, List.countP_eq_length]
        intro I hI
        simp only [column, List.mem_map] at hI
        obtain ⟨b, hb, rfl⟩ := hI
        rw [memE_coe]
        have h5 := hv b hb
        unfold InBox at h5
        rw [List.forall₂_iff_get] at h5
        have h6 := h5.2 i hi (h5.1 ▸ hi)
        have h7 : b.getD i ⊤ = b.get ⟨i, h5.1 ▸ hi⟩ := by
          rw [List.getD_eq_getElem?_getD, List.getElem?_eq_getElem (h5.1 ▸ hi)]; rfl
        rw [h7]
        exact h6
      have h5 := h3.countP_le (p := memE (((v[i]) : WithTop K) : EBnd K))
      have h6 : (column i L).length = L.length := by simp [column]
      unfold cnt at h4 ⊢
      omega
    rcases dim_spec hq (column i bs) with h | ⟨lo, hi', p, h, _, _, hw⟩
    · exact absurd hc (h.2 _)
    · refine ⟨.mk lo hi' p :: X, by rw [dims, h]; simp [h1], .cons ⟨v[i], List.getElem?_eq_getElem hi, ?_⟩ h2⟩
      have := hw _ hc
      rw [extLo_le_coe, coe_le_extHi] at this
      exact this

theorem inBox_of_range {v : List K} {X : Box K}
    (h : List.Forall₂ (fun i I => ∃ a, v[i]? = some a ∧ a ∈ I) (List.range v.length) X) : InBox v X := by
  unfold InBox
  rw [List.forall₂_iff_get] at h ⊢
  obtain ⟨h1, h2⟩ := h
  rw [List.length_range] at h1
  refine ⟨h1, fun i hi hi' => ?_⟩
  obtain ⟨a, h3, h4⟩ := h2 i (by simpa using hi) hi'
  simp only [List.get_eq_getElem, List.getElem_range] at h3
  rw [List.getElem?_eq_getElem hi] at h3
  cases h3
  exact h4

end QInter

open QInter in
theorem qinter_total {q : Int} (hq : 0 < q) {boxes : List (Box K)} (hb : boxes ≠ []) : ∃ X, qinter q boxes = some X := by
  cases boxes with
  | nil => exact absurd rfl hb
  | cons b l =>
    unfold qinter
    simp only [hq, if_true]
    split
    · exact ⟨_, rfl⟩
    · cases h : dims q ((b :: l).filter fun X => !X.isEmpty) (List.range b.length) with
      | none => exact absurd h (dims_ne_none hq _ _)
      | some r => exact ⟨_, rfl⟩

open QInter in
/-- a point of at least `q` boxes is in the result -/
theorem qinter_keeps {q : Int} (hq : 0 < q) {n : Nat} {boxes : List (Box K)} (hn : ∀ X ∈ boxes, X.length = n) {v : List K}
    {L : List (Box K)} (hL : L.Sublist boxes) (hlen : q ≤ L.length) (hv : ∀ X ∈ L, InBox v X) {Y : Box K}
    (h : qinter q boxes = some Y) : InBox v Y := by
  cases boxes with
  | nil => cases h
  | cons b l =>
    unfold qinter at h
    simp only [hq, if_true] at h
    have hL' : L.Sublist ((b :: l).filter fun X => !X.isEmpty) := by
      have := hL.filter fun X => !X.isEmpty
      rwa [List.filter_eq_self.mpr] at this
      intro X hX
      simp [(hv X hX).not_isEmpty]
    have hne : L ≠ [] := by
      rintro rfl
      simp at hlen
      omega
    obtain ⟨X0, hX0⟩ := List.exists_mem_of_ne_nil L hne
    have hlen' : v.length = b.length := by
      rw [(hv X0 hX0).length, hn X0 (hL.subset hX0), hn b (by simp)]
    rw [if_neg] at h
    · obtain ⟨X, h1, h2⟩ := dims_keeps hq hL' hlen hv (List.range b.length) (by intro i hi; rw [hlen']; simpa using hi)
      rw [h1] at h
      simp only [Option.map_some, Option.getD_some, Option.some.injEq] at h
      subst h
      rw [← hlen'] at h2
      exact inBox_of_range h2
    · intro he
      rw [List.isEmpty_iff] at he
      rw [he] at hL'
      exact hne (List.sublist_nil.mp hL')

open QInter in
/-- the result is inside every box which contains all the boxes -/
theorem qinter_le {q : Int} {boxes : List (Box K)} {Z : Box K} (hZ : ∀ X ∈ boxes, BoxLe X Z) {Y : Box K}
    (h : qinter q boxes = some Y) : BoxLe Y Z := by
  cases boxes with
  | nil => cases h
  | cons b l =>
    unfold qinter at h
    by_cases hq : 0 < q
    · simp only [hq, if_true] at h
      have hb : b.length = Z.length := (hZ b (by simp)).length
      by_cases he : ((b :: l).filter fun X => !X.isEmpty).isEmpty = true
      · rw [if_pos he] at h
        cases h
        exact empty_boxLe hb
      · rw [if_neg he, Option.map_eq_some_iff] at h
        obtain ⟨r, h1, h2⟩ := h
        cases r with
        | none => subst h2; exact empty_boxLe hb
        | some X =>
          simp only [Option.getD_some] at h2
          subst h2
          have h3 := dims_some h1
          unfold BoxLe
          rw [List.forall₂_iff_get] at h3 ⊢
          obtain ⟨h4, h5⟩ := h3
          rw [List.length_range] at h4
          refine ⟨h4 ▸ hb, fun i hi hi' => ?_⟩
          have h6 := h5 i (by simpa [h4] using hi) hi
          simp only [List.get_eq_getElem, List.getElem_range] at h6 ⊢
          refine dim_le hq h6 ?_
          intro I hI
          simp only [column, List.mem_map] at hI
          obtain ⟨B, hB, rfl⟩ := hI
          have h7 := hZ B (List.mem_filter.mp hB).1
          unfold BoxLe at h7
          rw [List.forall₂_iff_get] at h7
          have h8 : B.getD i ⊤ = B.get ⟨i, h7.1 ▸ hi'⟩ := by
            rw [List.getD_eq_getElem?_getD, List.getElem?_eq_getElem (h7.1 ▸ hi')]; rfl
          rw [h8]
          exact h7.2 i _ hi'
    · simp [hq] at h

end Codac
