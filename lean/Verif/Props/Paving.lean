import Verif.Paving.Compute
import Verif.Sivia.Ibex
import Verif.Props.Sivia

/-!
# C32, C33: pavings

The leaves of a paving are listed with their position in the tree (`Paving.leaves`).
-/

set_option linter.unusedSectionVars false

namespace Codac.Props
open Codac Codac.Paving

variable {K : Type*} [Field K] [LinearOrder K] [IsStrictOrderedRing K]
variable {bis : Box K → Box K × Box K} {S : List K → Prop} {p : K} {x0 : Box K} {fuel : Nat} {P : Paving K} {val : SetValue}

/-- the leaves cover the box of the paving, are inside it, and their interiors are disjoint -/
def Tiles (P : Paving K) (x0 : Box K) : Prop :=
  (∀ v, InBox v x0 ↔ ∃ q ∈ P.leaves 0 [], InBox v q.box) ∧
    (P.leaves 0 []).Pairwise (fun q q' => ∀ v, ¬ (InInterior v q.box ∧ InInterior v q'.box))

theorem tiles_of (hb : IsBis bis) {cl : Box K → Option SetValue} (h0 : x0 ≠ []) (h : compute bis cl val fuel x0 = some P) :
    Tiles P x0 ∧ ∀ q ∈ P.leaves 0 [], cl q.box = some q.value ∧ BoxLe q.box x0 := by
  obtain ⟨_, hs⟩ := compute_spec hb (List.length_pos_iff.mpr h0) rfl h
  obtain ⟨h1, h2, h3⟩ := hs 0 []
  refine ⟨⟨fun v => ⟨h2 v, ?_⟩, ?_⟩, h1⟩
  · rintro ⟨q, hq, hv⟩; exact hv.of_le (h1 q hq).2
  · exact h3.imp fun h v hv => h v hv.1 hv.2

/-- C32, `compute(ctc, precision)`: the leaves tile the box; a leaf labelled `OUT` contains no solution, the other leaves are labelled
`UNKNOWN` and are smaller than the precision -/
theorem C32_ctc {c : Box K → Box K} (hb : IsBis bis) (hc : IsCtc x0.length S c) (h0 : x0 ≠ [])
    (h : compute bis (classifyCtc c p) val fuel x0 = some P) :
    Tiles P x0 ∧ ∀ q ∈ P.leaves 0 [],
      (q.value = SetValue.OUT ∧ ∀ v, InBox v q.box → ¬ S v) ∨ (q.value = SetValue.UNKNOWN ∧ ShorterThan p q.box) := by
  obtain ⟨ht, hl⟩ := tiles_of hb h0 h
  refine ⟨ht, fun q hq => ?_⟩
  obtain ⟨h1, h2⟩ := hl q hq
  unfold classifyCtc at h1
  split at h1
  · rename_i he
    left
    simp only [Option.some.injEq] at h1
    exact ⟨h1.symm, fun v hv hS => not_inBox_of_isEmpty he (hc.keeps _ v h2.length hv hS)⟩
  · split at h1
    · rename_i hm
      simp only [Option.some.injEq] at h1
      exact .inr ⟨h1.symm, shorterThan_of hm⟩
    · cases h1

/-- C32, `compute(sep, precision)`: the leaves tile the box; a leaf labelled `IN` (`OUT`) only contains points inside (outside) the set, the
other leaves are labelled `UNKNOWN` and are smaller than the precision -/
theorem C32_sep {s : Box K → Box K → Box K × Box K} (hb : IsBis bis) (hs : IsSep x0.length S s) (h0 : x0 ≠ [])
    (h : compute bis (classifySep s p) val fuel x0 = some P) :
    Tiles P x0 ∧ ∀ q ∈ P.leaves 0 [],
      (q.value = SetValue.IN ∧ ∀ v, InBox v q.box → S v) ∨ (q.value = SetValue.OUT ∧ ∀ v, InBox v q.box → ¬ S v) ∨
        (q.value = SetValue.UNKNOWN ∧ ShorterThan p q.box) := by
  obtain ⟨ht, hl⟩ := tiles_of hb h0 h
  refine ⟨ht, fun q hq => ?_⟩
  obtain ⟨h1, h2⟩ := hl q hq
  have hlen := h2.length
  unfold classifySep at h1
  split at h1
  · rename_i he
    left
    simp only [Option.some.injEq] at h1
    refine ⟨h1.symm, fun v hv => ?_⟩
    by_contra hS
    exact not_inBox_of_isEmpty he (hs.keeps_in _ _ v hlen hlen hv hv hS)
  · split at h1
    · rename_i he
      right; left
      simp only [Option.some.injEq] at h1
      exact ⟨h1.symm, fun v hv hS => not_inBox_of_isEmpty he (hs.keeps_out _ _ v hlen hlen hv hv hS)⟩
    · split at h1
      · rename_i hm
        simp only [Option.some.injEq] at h1
        exact .inr (.inr ⟨h1.symm, shorterThan_of hm⟩)
      · cases h1

theorem inBox_of_isSubset {v : List K} {X Y : Box K} (hl : X.length = Y.length) (h : Box.isSubset X Y = true) (hv : InBox v X) :
    InBox v Y := by
  unfold Box.isSubset at h
  rw [hv.not_isEmpty, Bool.false_or, Bool.and_eq_true] at h
  have h := h.2
  clear * - hl h hv
  unfold InBox at *
  induction hv generalizing Y with
  | nil => cases Y with
    | nil => exact .nil
    | cons => simp at hl
  | cons h1 h2 ih =>
    cases Y with
    | nil => simp at hl
    | cons J Y =>
      simp only [List.zipWith_cons_cons, List.all_cons, id, Bool.and_eq_true, decide_eq_true_eq] at h
      exact .cons (Itv.mem_of_le h.1 h1) (ih (by simpa using hl) h.2)

theorem intersects_of_inBox {v : List K} {X Y : Box K} (h1 : InBox v X) (h2 : InBox v Y) : Box.intersects X Y = true := by
  unfold Box.intersects
  rw [h1.not_isEmpty, h2.not_isEmpty]
  simp only [Bool.not_false, Bool.true_and]
  unfold InBox at *
  induction h1 generalizing Y with
  | nil => simp
  | cons a1 _ ih =>
    cases h2 with
    | cons b1 h2 =>
      simp only [List.zipWith_cons_cons, List.all_cons, id, Bool.and_eq_true]
      exact ⟨Itv.intersects_of_mem a1 b1, ih h2⟩

/-- C32, `compute(f, y, precision)` for a function `f` defined (`some`) or not (`none`) at a point: the leaves tile the box; a leaf
labelled `OUT` contains no point sent in `y`; when `f` is defined everywhere in the box, a leaf labelled `IN` only contains points sent in
`y`; the other leaves are labelled `UNKNOWN` and are smaller than the precision. What is missing: `IN` for a function which is not defined
everywhere (`C32_function_fails`). -/
theorem C32_function_partial {F : Box K → Box K} {y : Box K} {f : List K → Option (List K)} (hb : IsBis bis)
    (hF : ∀ X v w, BoxLe X x0 → InBox v X → f v = some w → InBox w (F X)) (hFl : ∀ X, (F X).length = y.length) (h0 : x0 ≠ [])
    (h : compute bis (classifyFun F y p) val fuel x0 = some P) :
    Tiles P x0 ∧ ∀ q ∈ P.leaves 0 [],
      (q.value = SetValue.IN ∧ ((∀ v, InBox v x0 → f v ≠ none) → ∀ v, InBox v q.box → ∃ w, f v = some w ∧ InBox w y)) ∨
      (q.value = SetValue.OUT ∧ ∀ v w, InBox v q.box → f v = some w → ¬ InBox w y) ∨
        (q.value = SetValue.UNKNOWN ∧ ShorterThan p q.box) := by
  obtain ⟨ht, hl⟩ := tiles_of hb h0 h
  refine ⟨ht, fun q hq => ?_⟩
  obtain ⟨h1, h2⟩ := hl q hq
  unfold classifyFun at h1
  dsimp only at h1
  split at h1
  · rename_i he
    left
    simp only [Option.some.injEq] at h1
    refine ⟨h1.symm, fun hdef v hv => ?_⟩
    cases hw : f v with
    | none => exact absurd hw (hdef v (hv.of_le h2))
    | some w => exact ⟨w, rfl, inBox_of_isSubset (hFl _) he (hF _ v w h2 hv hw)⟩
  · split at h1
    · rename_i he
      right; left
      simp only [Option.some.injEq] at h1
      refine ⟨h1.symm, fun v w hv hw hy => ?_⟩
      rw [intersects_of_inBox (hF _ v w h2 hv hw) hy] at he
      simp at he
    · split at h1
      · rename_i hm
        simp only [Option.some.injEq] at h1
        exact .inr (.inr ⟨h1.symm, shorterThan_of hm⟩)
      · cases h1

/-- C32: for a bounded box and a positive precision the computation stops, in the three cases -/
theorem C32_terminates [Archimedean K] {ρ : K} (hb : IsBis bis) (hl : IsLargestFirst ρ bis) (hρ0 : 0 ≤ ρ) (hρ1 : ρ < 1) (h0 : x0 ≠ [])
    (hx0 : ∀ I ∈ x0, I.isUnbounded = false) (hp : 0 < p) {cl : Box K → Option SetValue}
    (hcl : (∃ c, cl = classifyCtc c p) ∨ (∃ s, cl = classifySep s p) ∨ ∃ F y, cl = classifyFun F y p) :
    ∃ N, ∀ fuel, N ≤ fuel → ∃ P, compute bis cl val fuel x0 = some P := by
  refine ⟨Sivia.boxRank ρ p x0 + 1, fun fuel hf => compute_total hb hl hρ0 hρ1 hp (List.length_pos_iff.mpr h0) ?_ rfl hx0 (by omega)⟩
  intro X _ hn
  by_contra hm
  simp only [Bool.not_eq_false] at hm
  rcases hcl with ⟨c, rfl⟩ | ⟨s, rfl⟩ | ⟨F, y, rfl⟩
  · unfold classifyCtc at hn; rw [hm] at hn; split at hn <;> simp at hn
  · unfold classifySep at hn; rw [hm] at hn
    split at hn
    · cases hn
    · split at hn <;> simp at hn
  · unfold classifyFun at hn; rw [hm] at hn
    dsimp only at hn
    split at hn
    · cases hn
    · split at hn <;> simp at hn

/-- C32: `get_boxes(val)` returns the boxes of the leaves carrying the value -/
theorem C32_get_boxes (P : Paving K) (v : SetValue) :
    P.getBoxes v .DEFAULT = ((P.leaves 0 []).filter fun q => q.value.meets v).map (·.box) := getBoxes_eq

/-- the values carried by the inner nodes of a paving -/
def innerValues : Paving K → List SetValue
  | .leaf _ _ => []
  | .node _ v l r => v :: (innerValues l ++ innerValues r)

/-- C72 (partial): the negative value of `get_boxes(val, neg_val)` only speeds up the search: the boxes are the ones of the leaves carrying `val`, when no inner node
carries `neg_val` without carrying `val`. Missing: inner nodes whose value does not sum up the values of their leaves, see `C72_negative_value_fails`. -/
theorem C72_negative_value_partial (P : Paving K) (v neg : SetValue) (h : ∀ u ∈ innerValues P, u.meets neg = true → u.meets v = true) :
    P.getBoxes v neg = ((P.leaves 0 []).filter fun q => q.value.meets v).map (·.box) := by
  rw [← getBoxes_eq]
  induction P with
  | leaf b u =>
    simp only [getBoxes]
    cases u.meets v <;> simp
  | node b u l r ihl ihr =>
    have hu := h u (by simp [innerValues])
    rw [getBoxes, getBoxes, ihl fun w hw => h w (by simp [innerValues, hw]), ihr fun w hw => h w (by simp [innerValues, hw])]
    have h1 : (neg != .DEFAULT && u.meets neg && !u.meets v) = false := by
      cases e : u.meets neg
      · simp
      · simp [hu e]
    rw [h1]
    simp [SetValue.DEFAULT]

/-- C72 (partial): in particular for a computed paving, whose inner nodes keep the initial value: a negative value which the initial value does not meet -/
theorem C72_computed_negative_value_partial {cl : Box K → Option SetValue} {fuel : Nat} {X : Box K} {P : Paving K} (hP : compute bis cl val fuel X = some P) {v neg : SetValue}
    (h : val.meets neg = false) : P.getBoxes v neg = ((P.leaves 0 []).filter fun q => q.value.meets v).map (·.box) := by
  refine C72_negative_value_partial P v neg ?_
  have key : ∀ u ∈ innerValues P, u = val := by
    induction fuel generalizing X P with
    | zero => cases hP
    | succ n ih =>
      unfold compute at hP
      split at hP
      · simp only [Option.some.injEq] at hP
        subst hP
        intro u hu
        cases hu
      · split at hP
        · rename_i l r hl hr
          simp only [Option.some.injEq] at hP
          subst hP
          intro u hu
          simp only [innerValues, List.mem_cons, List.mem_append] at hu
          rcases hu with rfl | hu | hu
          · rfl
          · exact ih hl u hu
          · exact ih hr u hu
        · cases hP
  intro u hu hm
  rw [key u hu, h] at hm
  cases hm

/-- C72 fails: in a computed paving the inner nodes keep the value `UNKNOWN`, so that asking for the `IN` boxes and rejecting the `UNKNOWN` ones gives
nothing, although there is an `IN` leaf -/
theorem C72_negative_value_fails : (compute (largestFirst (1/2 : ℚ)) (classifySep (sepBox siviaB) (3/4)) .UNKNOWN 10 siviaX).map
    (fun P => ((P.getBoxes .IN .UNKNOWN).length, (P.getBoxes .IN .DEFAULT).length, (P.getBoxes .IN .OUT).length)) = some (0, 1, 1) := by decide +kernel

/-- hypotheses of C32 met, with a non-trivial result: contractor on `[0,1/2] × [0,1/2]` -/
example : (compute (largestFirst (1/2 : ℚ)) (classifyCtc (ctcBox [.icc 0 (1/2), .icc 0 (1/2)]) (3/2)) .UNKNOWN 10 siviaX).map
    (fun P => (P.leaves 0 []).map fun q => (q.box, q.value)) =
    some [([.icc 0 1, .icc 0 1], 1), ([.icc 0 1, .icc 1 2], 2), ([.icc 1 2, .icc 0 2], 2)] := by decide +kernel

example : (compute (largestFirst (1/2 : ℚ)) (classifySep (sepBox siviaB) (3/4)) .UNKNOWN 10 siviaX).map
    (fun P => ((P.getBoxes .IN .DEFAULT).length, (P.getBoxes .OUT .DEFAULT).length)) = some (1, 5) := by decide +kernel

/-- an inclusion function of `√` on negative or positive intervals: empty on the negative ones (as in IBEX), here coarse on the others -/
def sqrtIncl (X : Box ℚ) : Box ℚ := if X.getD 0 ⊤ ≤ Itv.icc (-4) (-1) then [⊥] else [⊤]

/-- a partial function which is not defined for a negative argument -/
def sqrtPart (v : List ℚ) : Option (List ℚ) := if v.getD 0 0 < 0 then none else some [0]

/-- C32: with `f` a function which is not defined on the box `[-2,-1] × [0,1]`, the box is labelled `IN` although no point of the box is sent in `y`: the
evaluation is empty, hence a subset of `y` -/
theorem C32_function_fails : (∀ X v w, InBox v X → sqrtPart v = some w → InBox w (sqrtIncl X)) ∧
    (compute (largestFirst (1/2 : ℚ)) (classifyFun sqrtIncl [.icc 0 1] (1/10)) .UNKNOWN 10 [.icc (-2) (-1), .icc 0 1]).map
      (fun P => (P.leaves 0 []).map fun q => (q.box, q.value)) = some [([.icc (-2) (-1), .icc 0 1], SetValue.IN)] ∧
    ∀ v, InBox v [Itv.icc (-2 : ℚ) (-1), .icc 0 1] → sqrtPart v = none := by
  refine ⟨?_, by decide +kernel, ?_⟩
  · intro X v w hv hw
    unfold sqrtPart at hw
    split at hw
    · cases hw
    · rename_i hneg
      simp only [Option.some.injEq] at hw
      subst hw
      unfold sqrtIncl
      split
      · rename_i hle
        exfalso
        cases hv with
        | nil => exact absurd hle (by decide +kernel)
        | cons h1 _ =>
          have h2 : _ ∈ Itv.icc (-4 : ℚ) (-1) := Itv.mem_of_le hle h1
          rw [Itv.icc_eq_mk (by norm_num)] at h2
          have h3 : _ ≤ (-1 : ℚ) := h2.2
          simp only [List.getD_cons_zero] at hneg
          linarith
      · exact .cons ⟨trivial, trivial⟩ .nil
  · intro v hv
    cases hv with
    | cons h1 _ =>
      rw [Itv.icc_eq_mk (by norm_num)] at h1
      have h3 : _ ≤ (-1 : ℚ) := h1.2
      unfold sqrtPart
      rw [if_pos]
      simp only [List.getD_cons_zero]
      linarith

/-! ### C33 -/

/-- two leaves with a common point -/
def Touch (a b : Leaf K) : Prop := ∃ v, InBox v a.box ∧ InBox v b.box

/-- the leaves carrying one of the requested values -/
def selected (P : Paving K) (val : SetValue) : List (Leaf K) := (P.leaves 0 []).filter fun q => q.value.meets val

/-- C33: called on a root paving (whatever the flags left by previous calls), `get_connected_subsets(val)` terminates and returns
non-empty subsets such that: every leaf carrying a requested value occurs in exactly one subset, exactly once, and no other leaf occurs;
two leaves of the same subset are linked by a chain of touching leaves carrying a requested value; leaves of different subsets do not touch.
Missing: a paving which is not a root (`C33_copy_fails`, `C33_subpaving_fails`). -/
theorem C33_connected_subsets_partial {d : Nat} (hd : 0 < d) (hP : P.WF d) (flags0 : List (Leaf K)) :
    ∃ R, (∀ fuel, (selected P val).length + 1 ≤ fuel → connectedSubsets fuel val 0 [] P 0 P flags0 = some R) ∧
      R.flatten.Perm (selected P val) ∧ (∀ s ∈ R, s ≠ []) ∧
      (∀ s ∈ R, ∀ a ∈ s, ∀ b ∈ s,
        Relation.ReflTransGen (fun x y => x ∈ selected P val ∧ y ∈ selected P val ∧ Touch x y) a b) ∧
      R.Pairwise fun s t => ∀ a ∈ s, ∀ b ∈ t, ¬ Touch a b := by
  set sel := selected P val with hseldef
  let adj : Leaf K → Leaf K → Bool := fun a b => !(Box.inter a.box b.box).isEmpty
  have hsel : sel.Nodup := leaves_nodup.filter _
  have hlen : ∀ a ∈ sel, a.box.length = d := fun a ha =>
    (hP.leaf_le a (List.mem_filter.mp ha).1).length.trans hP.box_length
  have htouch : ∀ a ∈ sel, ∀ b ∈ sel, adj a b = true ↔ Touch a b := by
    intro a ha b hb
    have hne : a.box ≠ [] := by intro h; have := hlen a ha; rw [h] at this; simp at this; omega
    simp only [adj, Bool.not_eq_true']
    exact inter_isEmpty_iff hne (by rw [hlen a ha, hlen b hb])
  have hsym : ∀ a ∈ sel, ∀ b ∈ sel, adj a b = adj b a := by
    intro a ha b hb
    rw [Bool.eq_iff_iff, htouch a ha b hb, htouch b hb a ha]
    constructor <;> rintro ⟨v, h1, h2⟩ <;> exact ⟨v, h2, h1⟩
  have hN : ∀ flags, ∀ e ∈ sel, P.neighbours val flags 0 e = sel.filter fun q => q != e && adj e q && !flags.contains q := by
    intro flags e he
    unfold neighbours
    rw [intersecting_eq hd hP (hlen e he), List.filter_filter]
    refine List.filter_congr fun q hq => ?_
    have hv : SetValue.meets q.value val = true := (List.mem_filter.mp hq).2
    rw [hv]
    simp only [adj]
    cases q != e <;> cases (Box.inter e.box q.box).isEmpty <;> cases flags.contains q <;> rfl
  have hF : ∀ flags, P.firstLeaf val flags 0 [] = sel.find? fun p => !flags.contains p := fun flags => firstLeaf_eq
  set F0 := flags0.filter fun p => !(P.leaves 0 []).contains p with hF0
  have hinit : SubsetsInv sel adj F0 [] := by
    refine ⟨by simp, by simp, ?_, by simp, by simp, by simp, by simp⟩
    intro x hx
    simp only [List.flatten_nil, List.not_mem_nil, iff_false]
    intro hxF
    have h1 := (List.mem_filter.mp hxF).2
    have h2 := (List.mem_filter.mp hx).1
    simp [h2] at h1
  have key : ∀ fuel, sel.length + 1 ≤ fuel → ∃ F' R, connectedSubsets fuel val 0 [] P 0 P flags0 = some R ∧ SubsetsInv sel adj F' R ∧
      ∀ x ∈ sel, x ∈ R.flatten := fun fuel hf =>
    subsets_spec hsel hsym hN hF hf hinit (by
      have := List.length_filter_le (fun x => !F0.contains x) sel
      rw [← hF0]
      omega)
  -- the result does not depend on the number of iterations allowed
  have gmono : ∀ {n m : Nat} {l items G : List (Leaf K)} {r}, n ≤ m → grow val 0 P n l items G = some r → grow val 0 P m l items G = some r := by
    intro n
    induction n with
    | zero =>
      intro m l items G r hnm h
      cases l with
      | nil => cases m <;> simpa [grow] using h
      | cons e l => simp [grow] at h
    | succ n ih =>
      intro m l items G r hnm h
      obtain ⟨m, rfl⟩ := Nat.exists_eq_add_of_le' (Nat.one_le_iff_ne_zero.mpr (by omega : m ≠ 0))
      cases l with
      | nil => simpa [grow] using h
      | cons e l => rw [grow] at h ⊢; exact ih (by omega) h
  have smono : ∀ {f f' n m : Nat} {G : List (Leaf K)} {acc r}, f ≤ f' → n ≤ m → subsets f val 0 [] P 0 P n G acc = some r →
      subsets f' val 0 [] P 0 P m G acc = some r := by
    intro f f' n
    induction n with
    | zero => intro m G acc r _ _ h; simp [subsets] at h
    | succ n ih =>
      intro m G acc r hff hnm h
      obtain ⟨m, rfl⟩ := Nat.exists_eq_add_of_le' (Nat.one_le_iff_ne_zero.mpr (by omega : m ≠ 0))
      rw [subsets] at h ⊢
      cases hq : P.firstLeaf val G 0 [] with
      | none => rw [hq] at h; exact h
      | some q =>
        rw [hq] at h
        dsimp only at h ⊢
        cases hg : grow val 0 P f [q] [] G with
        | none => rw [hg] at h; cases h
        | some rr =>
          rw [hg] at h
          rw [gmono hff hg]
          exact ih hff (by omega) h
  obtain ⟨F', R, hR, hI, hall⟩ := key (sel.length + 1) (le_refl _)
  refine ⟨R, fun fuel hf => smono hf hf hR, ?_, hI.ne, ?_, ?_⟩
  · rw [List.perm_ext_iff_of_nodup hI.nodup hsel]
    exact fun x => ⟨hI.sub x, hall x⟩
  · intro s hs a ha b hb
    have := hI.conn s hs a ha b hb
    clear hb
    induction this with
    | refl => exact .refl
    | tail _ h ih =>
      obtain ⟨h1, h2, h3⟩ := h
      exact ih.tail ⟨h1, h2, (htouch _ h1 _ h2).mp h3⟩
  · have hmem : ∀ s ∈ R, ∀ a ∈ s, a ∈ sel := fun s hs a ha => hI.sub a (List.mem_flatten.mpr ⟨s, hs, ha⟩)
    refine List.pairwise_iff_forall_sublist.mpr fun {s t} hst a ha b hb hT => ?_
    have hs : s ∈ R := hst.subset (by simp)
    have ht : t ∈ R := hst.subset (by simp)
    have := List.pairwise_iff_forall_sublist.mp hI.apart hst a ha b hb
    rw [(htouch a (hmem s hs a ha) b (hmem t ht b hb)).mpr hT] at this
    cases this

/-- two undetermined leaves, `[0,1] × [0,1]` and `[1,2] × [0,1]`, and one outside -/
def pavEx : Paving ℚ :=
  .node [.icc 0 4, .icc 0 1] 1 (.node [.icc 0 2, .icc 0 1] 1 (.leaf [.icc 0 1, .icc 0 1] 1) (.leaf [.icc 1 2, .icc 0 1] 1))
    (.node [.icc 2 4, .icc 0 1] 1 (.leaf [.icc 2 3, .icc 0 1] 2) (.leaf [.icc 3 4, .icc 0 1] 4))

example : pavEx.WF 2 := by
  simp only [pavEx, WF, Paving.box, List.length_cons, List.length_nil, BoxLe]
  simp only [List.forall₂_cons, List.forall₂_same]
  decide +kernel

example : (connectedSubsets 10 5 0 [] pavEx 0 pavEx []).map (fun R => R.map fun s => s.map (·.path)) =
    some [[[false, false], [false, true]], [[true, true]]] := by decide +kernel

/-- C33: on a copy of a paving (`Paving(const Paving&)`, codac_Paving.cpp:29-39, keeps the root `m_root` of the original), the subsets
contain leaves of the original, and the two touching leaves of the copy (tree 1) are in two different subsets -/
theorem C33_copy_fails : (connectedSubsets 10 5 1 [] pavEx 0 pavEx []).map (fun R => R.map fun s => s.map fun q => (q.tree, q.path)) =
    some [[(1, [false, false]), (0, [false, false]), (0, [false, true])], [(1, [false, true])],
      [(1, [true, true]), (0, [true, true])]] ∧
    (∃ v : List ℚ, InBox v [.icc 0 1, .icc 0 1] ∧ InBox v [.icc 1 2, .icc 0 1]) := by
  refine ⟨by decide +kernel, [1, 0], ?_, ?_⟩
  · unfold InBox
    rw [Itv.icc_eq_mk (by norm_num)]
    exact .cons ⟨by norm_num [loLe], by norm_num [leHi]⟩ (.cons ⟨by norm_num [loLe], by norm_num [leHi]⟩ .nil)
  · unfold InBox
    rw [Itv.icc_eq_mk (by norm_num), Itv.icc_eq_mk (by norm_num)]
    exact .cons ⟨by norm_num [loLe], by norm_num [leHi]⟩ (.cons ⟨by norm_num [loLe], by norm_num [leHi]⟩ .nil)

/-- C33: called on the first leaf of the paving as a sub-paving, the returned subset contains another leaf of the root -/
theorem C33_subpaving_fails :
    (connectedSubsets 10 5 0 [false, false] (.leaf [Itv.icc (0 : ℚ) 1, .icc 0 1] 1) 0 pavEx []).map
      (fun R => R.map fun s => s.map fun q => (q.tree, q.path)) = some [[(0, [false, false]), (0, [false, true])]] := by decide +kernel

end Codac.Props
