import Verif.Paving.DegreeProofs
import Mathlib.Tactic.LinearCombination

/-!
# Soundness of the topological degree

When the function has no zero on the subset, the degree is zero.
-/

set_option linter.unusedSectionVars false

namespace Codac
namespace Deg
open Paving

/-! ### Signs -/

theorem sign_cases {I : Itv ℝ} : (sign I = 0 ∧ (0 : ℝ) ∈ I) ∨ (sign I = 1 ∧ ∀ x ∈ I, 0 < x) ∨ (sign I = -1 ∧ ∀ x ∈ I, x < 0) := by
  unfold sign
  by_cases h : (0 : ℝ) ∈ I
  · left; rw [if_pos h]; exact ⟨rfl, h⟩
  · right
    rw [if_neg h]
    cases I with
    | empty => right; exact ⟨rfl, fun x hx => by cases hx⟩
    | mk l u hlu =>
      cases l with
      | none =>
        right
        refine ⟨rfl, fun x hx => ?_⟩
        by_contra hc
        push Not at hc
        refine h ⟨trivial, ?_⟩
        have := hx.2
        cases u with
        | none => trivial
        | some u => exact hc.trans this
      | some a =>
        simp only [Itv.lb?]
        by_cases ha : 0 < a
        · left
          rw [if_pos ha]
          exact ⟨rfl, fun x hx => lt_of_lt_of_le ha hx.1⟩
        · right
          rw [if_neg ha]
          refine ⟨rfl, fun x hx => ?_⟩
          by_contra hc
          push Not at hc ha
          refine h ⟨ha, ?_⟩
          have := hx.2
          cases u with
          | none => trivial
          | some u => exact hc.trans this

theorem merge1_zero (b : Int) : merge1 0 b = some b := by
  unfold merge1
  by_cases h : b = 0
  · rw [if_pos h, h]
  · rw [if_neg h, if_neg (by simp)]

theorem merge_zero (b : Int × Int) : merge (0, 0) b = some b := by
  unfold merge
  rw [merge1_zero, merge1_zero]; rfl

theorem merge1_some {a b s : Int} (h : merge1 a b = some s) : (a ≠ 0 → s = a) ∧ (b ≠ 0 → s = b) ∧ (s = a ∨ s = b) := by
  unfold merge1 at h
  by_cases hb : b = 0
  · rw [if_pos hb] at h
    obtain rfl := Option.some.inj h
    exact ⟨fun _ => rfl, fun h' => absurd hb h', Or.inl rfl⟩
  · rw [if_neg hb] at h
    by_cases ha : a ≠ 0 ∧ a ≠ b
    · rw [if_pos ha] at h; cases h
    · rw [if_neg ha] at h
      obtain rfl := Option.some.inj h
      refine ⟨fun h' => ?_, fun _ => rfl, Or.inr rfl⟩
      by_contra hc
      exact ha ⟨h', fun e => hc e.symm⟩

theorem merge_some {a b s : Int × Int} (h : merge a b = some s) :
    ((a.1 ≠ 0 → s.1 = a.1) ∧ (b.1 ≠ 0 → s.1 = b.1) ∧ (s.1 = a.1 ∨ s.1 = b.1)) ∧
      ((a.2 ≠ 0 → s.2 = a.2) ∧ (b.2 ≠ 0 → s.2 = b.2) ∧ (s.2 = a.2 ∨ s.2 = b.2)) := by
  unfold merge at h
  cases h1 : merge1 a.1 b.1 with
  | none => rw [h1] at h; cases h
  | some x =>
    cases h2 : merge1 a.2 b.2 with
    | none => rw [h1, h2] at h; cases h
    | some y =>
      rw [h1, h2] at h
      obtain rfl := Option.some.inj h
      exact ⟨merge1_some h1, merge1_some h2⟩

theorem merge_self {a s : Int × Int} (h : merge a a = some s) : s = a := by
  obtain ⟨⟨_, _, h1⟩, _, _, h2⟩ := merge_some h
  exact Prod.ext (by tauto) (by tauto)

/-! ### The box on the other side of an edge -/

theorem wide_mono {I C R : RR} (h1 : R.x0 ≤ C.x0) (h2 : C.x1 ≤ R.x1) (h3 : R.y0 ≤ C.y0) (h4 : C.y1 ≤ R.y1) (hw : I.Wide C) : I.Wide R := by
  unfold RR.Wide RR.Meet RR.inter at *
  have a1 := max_le_max (le_refl I.x0) h1
  have a2 := min_le_min (le_refl I.x1) h2
  have a3 := max_le_max (le_refl I.y0) h3
  have a4 := min_le_min (le_refl I.y1) h4
  obtain ⟨⟨w1, w2⟩, w3⟩ := hw
  refine ⟨⟨a1.trans (w1.trans a2), a3.trans (w2.trans a4)⟩, ?_⟩
  rcases w3 with w3 | w3
  · exact Or.inl (lt_of_le_of_lt a1 (w3.trans_le a2))
  · exact Or.inr (lt_of_le_of_lt a3 (w3.trans_le a4))

theorem mem_intersectingWide {P : Paving ℝ} (h : P.Cut) {t : Nat} {path : List Bool} {I : RR} (hI : I.x0 ≤ I.x1) {c : Leaf ℝ}
    (hc : c ∈ P.leaves t path) (ho : c.value.meets .OUT = true) (hw : I.Wide (rect c)) :
    c ∈ P.intersectingWide .OUT I.box t path := by
  have key : ∀ (Q : Paving ℝ) (path : List Bool), Q.Cut → c ∈ Q.leaves t path →
      ((Box.inter I.box Q.box).isEmpty || (Box.inter I.box Q.box).all Itv.isDegenerated) = false := by
    intro Q path hQ hcQ
    obtain ⟨R, hR, e⟩ := cut_box hQ
    obtain ⟨k1, -⟩ := cut_leaves hQ t path hR e
    obtain ⟨_, _, k3, k4, k5, k6⟩ := k1 c hcQ
    have hw' := wide_mono k3 k4 k5 k6 hw
    rw [e, (isEmpty_inter hI hR.1.le).2 hw'.1, (wide_iff hI hR.1.le).2 hw']
    rfl
  induction P generalizing path with
  | leaf b v =>
    obtain rfl := List.mem_singleton.1 hc
    have := key _ path h hc
    unfold intersectingWide
    rw [if_neg (by rw [Paving.box] at this; simp [this]), if_pos ho]
    exact List.mem_singleton.2 rfl
  | node b v l r ihl ihr =>
    have := key _ path h hc
    unfold intersectingWide
    rw [if_neg (by rw [Paving.box] at this; simp [this])]
    rcases List.mem_append.1 hc with hc | hc
    · exact List.mem_append_left _ (ihl h.1 hc)
    · exact List.mem_append_right _ (ihr h.2.1 hc)

/-- the common side of a pair -/
noncomputable def pI (p : Leaf ℝ × Leaf ℝ) : RR := (rect p.1).inter (rect p.2)

/-- its box, an element of `get_boundary` -/
noncomputable def pB (p : Leaf ℝ × Leaf ℝ) : Box ℝ := Box.inter p.1.box p.2.box

theorem PairFacts.pB_eq {S : Subset ℝ} {p : Leaf ℝ × Leaf ℝ} (h : PairFacts S p) : pB p = (pI p).box := by
  unfold pB
  rw [h.boxU, h.boxC, inter_box_of_meet h.posU.1.le h.posC.1.le h.wide.1]
  rfl

theorem pI_wide {S : Subset ℝ} {p : Leaf ℝ × Leaf ℝ} (h : PairFacts S p) : (pI p).Wide (rect p.2) := by
  have hw := h.wide
  have e : (pI p).inter (rect p.2) = pI p := by
    unfold pI RR.inter
    simp
  unfold RR.Wide RR.Meet
  rw [e]
  exact hw

theorem outs_leaf {S : Subset ℝ} {c : Leaf ℝ} (h : c ∈ S.outs) : c ∈ S.root.leaves 0 [] ∧ c.value.meets .OUT = true := List.mem_filter.1 h

/-- the `OUT` box found for an edge is the only one -/
theorem Subset.Good.coface {S : Subset ℝ} (h : S.Good) {p : Leaf ℝ × Leaf ℝ} (hp : PairFacts S p) {b : Box ℝ} (hc : S.coface (pB p) = some b) :
    b = p.2.box ∧ ∀ c ∈ S.outs, (pI p).Wide (rect c) → c = p.2 := by
  unfold Subset.coface at hc
  rw [hp.pB_eq] at hc
  have hx : (pI p).x0 ≤ (pI p).x1 := hp.wide.1.1
  cases hl : S.root.intersectingWide .OUT (pI p).box 0 [] with
  | nil => rw [hl] at hc; cases hc
  | cons c0 l =>
    cases l with
    | cons _ _ => rw [hl] at hc; cases hc
    | nil =>
      have key : ∀ c ∈ S.outs, (pI p).Wide (rect c) → c = c0 := by
        intro c hco hw
        have := mem_intersectingWide h.cut hx (outs_leaf hco).1 (outs_leaf hco).2 hw
        rw [hl] at this
        exact List.mem_singleton.1 this
      have e := key p.2 hp.out (pI_wide hp)
      rw [hl] at hc
      simp only at hc
      split at hc
      · refine ⟨?_, fun c hco hw => (key c hco hw).trans e.symm⟩
        rw [e]; exact (Option.some.inj hc).symm
      · cases hc

section
variable (F : Box ℝ → Itv ℝ × Itv ℝ)

/-- signs of an `OUT` leaf -/
noncomputable def sg (c : Leaf ℝ) : Int × Int := signBox F c.box

theorem signEdge_eq {S : Subset ℝ} (h : S.Good) {p : Leaf ℝ × Leaf ℝ} (hp : PairFacts S p) {b : Box ℝ} (hc : S.coface (pB p) = some b) :
    S.signEdge F (pB p) = some (sg F p.2) := by
  unfold Subset.signEdge
  rw [hc, Option.bind_some, merge_zero, (h.coface hp hc).1]; rfl

/-- the loop on the boundary -/
theorem degreeLoop_some {S : Subset ℝ} (h : S.Good) (ps : List (Leaf ℝ × Leaf ℝ)) (hps : ∀ p ∈ ps, PairFacts S p) {d0 d : Int}
    (hd : S.degreeLoop F (ps.map pB) d0 = some d) :
    (∀ p ∈ ps, S.coface (pB p) = some p.2.box ∧ ∃ l, S.localEdge F (pB p) p.2.box = some l) ∧
      d = d0 + (ps.map fun p => orientation (pB p) p.2.box * (S.localEdge F (pB p) p.2.box).getD 0).sum := by
  induction ps generalizing d0 with
  | nil =>
    have hd : some d0 = some d := hd
    obtain rfl := Option.some.inj hd
    exact ⟨fun p hp => absurd hp (by simp), by simp⟩
  | cons p ps ih =>
    rw [List.map_cons, Subset.degreeLoop] at hd
    split at hd
    · cases hc : S.coface (pB p) with
      | none => rw [hc] at hd; cases hd
      | some b =>
        rw [hc, Option.bind_some] at hd
        obtain ⟨rfl, -⟩ := h.coface (hps p (by simp)) hc
        cases hl : S.localEdge F (pB p) p.2.box with
        | none => rw [hl] at hd; cases hd
        | some l =>
          rw [hl, Option.bind_some] at hd
          obtain ⟨h1, h2⟩ := ih (fun q hq => hps q (by simp [hq])) hd
          refine ⟨?_, ?_⟩
          · intro q hq
            rcases List.mem_cons.1 hq with rfl | hq
            · exact ⟨hc, l, hl⟩
            · exact h1 q hq
          · rw [h2, List.map_cons, List.sum_cons, hl, Option.getD_some]
            ring
    · cases hd

/-! ### Sign at a vertex -/

/-- the edges of the boundary at a point -/
noncomputable def Subset.at (S : Subset ℝ) (v : ℝ × ℝ) : List (Leaf ℝ × Leaf ℝ) := S.pairs.filter fun p => Box.intersects (pB p) (vbox v)

/-- those of the box `cc` -/
noncomputable def Subset.atOn (S : Subset ℝ) (v : ℝ × ℝ) (cc : Box ℝ) : List (Leaf ℝ × Leaf ℝ) :=
  (S.at v).filter fun p => !(Box.inter cc (pB p)).all Itv.isDegenerated

/-- the signs merged on some edges -/
noncomputable def foldSg (q : List (Leaf ℝ × Leaf ℝ)) : Option (Int × Int) := q.foldlM (fun a p => merge a (sg F p.2)) (0, 0)

theorem foldSg_two {p1 p2 : Leaf ℝ × Leaf ℝ} : foldSg F [p1, p2] = merge (sg F p1.2) (sg F p2.2) := by
  unfold foldSg
  simp only [List.foldlM_cons, List.foldlM_nil, merge_zero]
  cases h : merge (sg F p1.2) (sg F p2.2) with
  | none => simp [h]
  | some s => simp [h]

theorem cofaces_eq {S : Subset ℝ} {v : ℝ × ℝ} {cc : Box ℝ} {l : List (Box ℝ)} (h : S.cofaces (vbox v) cc = some l) :
    ((S.atOn v cc).length = 2 ∧ l = (S.atOn v cc).map pB) ∨ ((S.at v).length = 2 ∧ l = (S.at v).map pB) := by
  have e1 : (S.boundary.filter fun bi => Box.intersects bi (vbox v)) = (S.at v).map pB := by
    unfold Subset.boundary Subset.at
    rw [List.filter_map]; rfl
  have e2 : ((S.boundary.filter fun bi => Box.intersects bi (vbox v)).filter fun bi => !(Box.inter cc bi).all Itv.isDegenerated) =
      (S.atOn v cc).map pB := by
    rw [e1]
    unfold Subset.atOn
    rw [List.filter_map]; rfl
  unfold Subset.cofaces at h
  simp only at h
  rw [e2, e1, List.length_map] at h
  by_cases h2 : (S.atOn v cc).length = 2
  · rw [if_pos h2, List.length_map, if_pos h2] at h
    exact Or.inl ⟨h2, (Option.some.inj h).symm⟩
  · rw [if_neg h2, List.length_map] at h
    by_cases h3 : (S.at v).length = 2
    · rw [if_pos h3] at h
      exact Or.inr ⟨h3, (Option.some.inj h).symm⟩
    · rw [if_neg h3] at h; cases h

theorem foldlM_sign {S : Subset ℝ} (h : S.Good) {q : List (Leaf ℝ × Leaf ℝ)} (hq : ∀ p ∈ q, PairFacts S p ∧ S.coface (pB p) = some p.2.box)
    {a s : Int × Int}
    (hf : (q.map pB).foldlM (fun a e => if boxDim e = 1 then (S.signEdge F e).bind (merge a) else none) a = some s) :
    q.foldlM (fun a p => merge a (sg F p.2)) a = some s := by
  induction q generalizing a with
  | nil => exact hf
  | cons p q ih =>
    rw [List.map_cons, List.foldlM_cons] at hf
    rw [List.foldlM_cons]
    obtain ⟨hp, hc⟩ := hq p (by simp)
    rw [signEdge_eq F h hp hc, Option.bind_some] at hf
    split at hf
    · cases hm : merge a (sg F p.2) with
      | none => rw [hm] at hf; cases hf
      | some a' =>
        rw [hm] at hf
        exact ih (fun p hp => hq p (by simp [hp])) hf
    · cases hf

/-- the sign vector of a point -/
theorem signPoint_some {S : Subset ℝ} (h : S.Good) (hall : ∀ p ∈ S.pairs, S.coface (pB p) = some p.2.box) {v : ℝ × ℝ} {cc : Box ℝ}
    {s : Int × Int} (hs : S.signPoint F (vbox v) cc = some s) :
    ((S.atOn v cc).length = 2 ∧ foldSg F (S.atOn v cc) = some s) ∨ ((S.at v).length = 2 ∧ foldSg F (S.at v) = some s) := by
  unfold Subset.signPoint at hs
  cases hc : S.cofaces (vbox v) cc with
  | none => rw [hc] at hs; cases hs
  | some l =>
    rw [hc, Option.bind_some] at hs
    have hat : ∀ p ∈ S.at v, PairFacts S p ∧ S.coface (pB p) = some p.2.box := fun p hp =>
      have := List.mem_of_mem_filter hp
      ⟨h.mem_pairs this, hall p this⟩
    rcases cofaces_eq hc with ⟨h2, rfl⟩ | ⟨h2, rfl⟩
    · exact Or.inl ⟨h2, foldlM_sign F h (fun p hp => hat p (List.mem_of_mem_filter hp)) hs⟩
    · exact Or.inr ⟨h2, foldlM_sign F h hat hs⟩

theorem mem_atOn {S : Subset ℝ} (h : S.Good) (hall : ∀ p ∈ S.pairs, S.coface (pB p) = some p.2.box) {v : ℝ × ℝ} {c : Leaf ℝ}
    (hc : c ∈ S.outs) {p : Leaf ℝ × Leaf ℝ} (hp : p ∈ S.at v) :
    (!(Box.inter c.box (pB p)).all Itv.isDegenerated) = true ↔ p.2 = c := by
  have hpm := List.mem_of_mem_filter hp
  have hpf := h.mem_pairs hpm
  have hf := h.facts.leaf c (outs_leaf hc).1
  have hx : (pI p).x0 ≤ (pI p).x1 := hpf.wide.1.1
  have hw := wide_iff hf.1.1.le hx
  have sym : (rect c).Wide (pI p) ↔ (pI p).Wide (rect c) := by
    unfold RR.Wide RR.Meet RR.inter
    simp only [max_comm, min_comm]
  rw [Bool.not_eq_true', hf.2, hpf.pB_eq, hw, sym]
  constructor
  · intro hw
    exact ((h.coface hpf (hall p hpm)).2 c hc hw).symm
  · rintro rfl
    exact pI_wide hpf

/-- the edges of the box `c` at a point -/
theorem atOn_eq {S : Subset ℝ} (h : S.Good) (hall : ∀ p ∈ S.pairs, S.coface (pB p) = some p.2.box) {v : ℝ × ℝ} {c : Leaf ℝ} (hc : c ∈ S.outs) :
    (∀ p ∈ S.atOn v c.box, p.2 = c) ∧ ∀ p ∈ S.at v, p.2 = c → p ∈ S.atOn v c.box := by
  constructor
  · intro p hp
    obtain ⟨h1, h2⟩ := List.mem_filter.1 hp
    exact (mem_atOn h hall hc h1).1 h2
  · intro p hp e
    exact List.mem_filter.2 ⟨hp, (mem_atOn h hall hc hp).2 e⟩

theorem mem_at {S : Subset ℝ} (h : S.Good) {v : ℝ × ℝ} {p : Leaf ℝ × Leaf ℝ} : p ∈ S.at v ↔ p ∈ S.pairs ∧ (pI p).Mem v := by
  unfold Subset.at
  rw [List.mem_filter]
  constructor
  · rintro ⟨h1, h2⟩
    rw [(h.mem_pairs h1).pB_eq, intersects_vbox] at h2
    exact ⟨h1, h2⟩
  · rintro ⟨h1, h2⟩
    refine ⟨h1, ?_⟩
    rw [(h.mem_pairs h1).pB_eq, intersects_vbox]
    exact h2

/-- sum of a function of a key -/
theorem sum_by_key {ι κ : Type*} [DecidableEq κ] (l : List ι) (o : ι → Int) (k1 k2 : ι → κ) (g : κ → Int)
    (h : ∀ k, g k ≠ 0 → (l.map fun p => o p * ((if k1 p = k then 1 else 0) - (if k2 p = k then 1 else 0))).sum = 0) :
    (l.map fun p => o p * (g (k1 p) - g (k2 p))).sum = 0 := by
  classical
  let Z : Finset κ := (l.map k1 ++ l.map k2).toFinset
  have e : ∀ (l' : List ι), (∀ p ∈ l', k1 p ∈ Z ∧ k2 p ∈ Z) → (l'.map fun p => o p * (g (k1 p) - g (k2 p))).sum =
      ∑ k ∈ Z, g k * (l'.map fun p => o p * ((if k1 p = k then 1 else 0) - (if k2 p = k then 1 else 0))).sum := by
    intro l' hl'
    induction l' with
    | nil => simp
    | cons p l' ih =>
      rw [List.map_cons, List.sum_cons, ih fun q hq => hl' q (by simp [hq])]
      have hp := hl' p (by simp)
      have e1 : ∀ k0 ∈ Z, g k0 = ∑ k ∈ Z, g k * (if k0 = k then 1 else 0) := by
        intro k0 hk0
        simp [hk0]
      have e2 : o p * (g (k1 p) - g (k2 p)) = ∑ k ∈ Z, g k * (o p * ((if k1 p = k then 1 else 0) - (if k2 p = k then 1 else 0))) := by
        rw [e1 _ hp.1, e1 _ hp.2, ← Finset.sum_sub_distrib, Finset.mul_sum]
        refine Finset.sum_congr rfl fun k _ => ?_
        ring
      rw [e2, ← Finset.sum_add_distrib]
      refine Finset.sum_congr rfl fun k _ => ?_
      rw [List.map_cons, List.sum_cons]
      ring
  rw [e l]
  · refine Finset.sum_eq_zero fun k _ => ?_
    by_cases hk : g k = 0
    · rw [hk, zero_mul]
    · rw [h k hk, mul_zero]
  · intro p hp
    simp only [Z, List.mem_toFinset, List.mem_append, List.mem_map]
    exact ⟨Or.inl ⟨p, hp, rfl⟩, Or.inr ⟨p, hp, rfl⟩⟩

theorem sum_sublist {α : Type*} (l : List α) (p : α → Bool) (f : α → Int) (h : ∀ x ∈ l, p x = false → f x = 0) :
    (l.map f).sum = ((l.filter p).map f).sum := by
  rw [sum_filter]
  refine congrArg List.sum (List.map_congr_left fun x hx => ?_)
  by_cases hp : p x = true
  · rw [if_pos hp]
  · rw [if_neg hp]; exact h x hx (by simpa using hp)

theorem lo_mem {p : Leaf ℝ × Leaf ℝ} (h : (rect p.1).Meet (rect p.2)) : (pI p).Mem (lo (rect p.1) (rect p.2)) :=
  ⟨le_rfl, h.1, le_rfl, h.2⟩

theorem hi_mem {p : Leaf ℝ × Leaf ℝ} (h : (rect p.1).Meet (rect p.2)) : (pI p).Mem (hi (rect p.1) (rect p.2)) :=
  ⟨h.1, le_rfl, h.2, le_rfl⟩

/-- the ends of the edges of a box at a point cancel when there are two of them -/
theorem ends_cancel {S : Subset ℝ} (h : S.Good) (hall : ∀ p ∈ S.pairs, S.coface (pB p) = some p.2.box) {v : ℝ × ℝ} {c : Leaf ℝ} (hc : c ∈ S.outs)
    (h2 : (S.atOn v c.box).length = 2) [DecidableEq (Leaf ℝ × (ℝ × ℝ))] :
    (S.pairs.map fun p => orientation (pB p) p.2.box * ((if (p.2, hi (rect p.1) (rect p.2)) = (c, v) then 1 else 0) -
      (if (p.2, lo (rect p.1) (rect p.2)) = (c, v) then 1 else 0))).sum = 0 := by
  classical
  obtain ⟨ha, hb⟩ := atOn_eq h hall (v := v) hc
  have e : S.atOn v c.box = S.pairs.filter fun p => decide (p ∈ S.atOn v c.box) := by
    unfold Subset.atOn Subset.at
    rw [List.filter_filter]
    refine List.filter_congr fun p hp => ?_
    rw [Bool.eq_iff_iff, decide_eq_true_eq, List.mem_filter]
    simp only [hp, true_and]
  rw [sum_sublist S.pairs (fun p => decide (p ∈ S.atOn v c.box)), ← e]
  · have hn : (S.atOn v c.box).Nodup := (h.pairs_nodup.filter _).filter _
    match hq : S.atOn v c.box, h2 with
    | [p1, p2], _ =>
      rw [hq] at hn ha
      have m1 : p1 ∈ S.atOn v c.box := by rw [hq]; simp
      have m2 : p2 ∈ S.atOn v c.box := by rw [hq]; simp
      have k1 := (mem_at h).1 (List.mem_of_mem_filter m1)
      have k2 := (mem_at h).1 (List.mem_of_mem_filter m2)
      have f1 := h.mem_pairs k1.1
      have f2 := h.mem_pairs k2.1
      have c1 := ha p1 (by simp)
      have c2 := ha p2 (by simp)
      have hne : p1.1 ≠ p2.1 := by
        intro e
        have : p1 = p2 := Prod.ext e (c1.trans c2.symm)
        simp [this] at hn
      obtain ⟨o1, s1⟩ := Side.of_wide f1.disj f1.wide
      obtain ⟨o2, s2⟩ := Side.of_wide f2.disj f2.wide
      have or1 := (s1.facts f1.posU f1.posC).ori
      have or2 := (s2.facts f2.posU f2.posC).ori
      simp only [List.map_cons, List.map_nil, List.sum_cons, List.sum_nil, add_zero]
      rw [f1.pB_eq, f1.boxC, f2.pB_eq, f2.boxC]
      unfold pI
      rw [or1, or2]
      simp only [c1, c2, Prod.mk.injEq, true_and]
      have hd := h.facts.disj p1.1 (h.sub _ f1.item) p2.1 (h.sub _ f2.item) hne
      have s1' : Side (rect p1.1) (rect c) o1 := by rw [← c1]; exact s1
      have s2' : Side (rect p2.1) (rect c) o2 := by rw [← c2]; exact s2
      have pc : (rect c).Pos := by rw [← c1]; exact f1.posC
      have := eps_cancel f1.posU f2.posU pc hd s1' s2' (v := v) (by have := k1.2; unfold pI at this; rw [c1] at this; exact this)
        (by have := k2.2; unfold pI at this; rw [c2] at this; exact this)
      unfold eps at this
      exact this
  · intro p hp hn
    have hn : p ∉ S.atOn v c.box := by simpa using hn
    have hf := h.mem_pairs hp
    rw [if_neg, if_neg]
    · simp
    · intro he
      obtain ⟨e1, e2⟩ := Prod.mk.inj he
      exact hn (hb p ((mem_at h).2 ⟨hp, e2 ▸ lo_mem hf.wide.1⟩) e1)
    · intro he
      obtain ⟨e1, e2⟩ := Prod.mk.inj he
      exact hn (hb p ((mem_at h).2 ⟨hp, e2 ▸ hi_mem hf.wide.1⟩) e1)

theorem localPoint_some {S : Subset ℝ} {v cc : Box ℝ} {L : Int} (h : S.localPoint F v cc = some L) :
    ∃ s, S.signPoint F v cc = some s ∧ L = if s = (1, 1) then 1 else 0 := by
  unfold Subset.localPoint at h
  cases hs : S.signPoint F v cc with
  | none => rw [hs] at h; cases h
  | some s =>
    rw [hs] at h
    refine ⟨s, rfl, ?_⟩
    have h : L = if s.2 ≠ 1 then 0 else if s = (1, 1) then 1 else 0 := (Option.some.inj h).symm
    by_cases h2 : s.2 ≠ 1
    · rw [if_pos h2] at h
      rw [h, if_neg]
      rintro rfl
      exact h2 rfl
    · rw [if_neg h2] at h
      exact h

/-- the local degree of an edge -/
theorem localEdge_some {S : Subset ℝ} (h : S.Good) {p : Leaf ℝ × Leaf ℝ} (hp : PairFacts S p) (hc : S.coface (pB p) = some p.2.box) {l : Int}
    (hl : S.localEdge F (pB p) p.2.box = some l) :
    ((sg F p.2).1 ≠ 1 ∧ l = 0) ∨ ((sg F p.2).1 = 1 ∧ ∃ a b, S.localPoint F (vbox (lo (rect p.1) (rect p.2))) p.2.box = some a ∧
      S.localPoint F (vbox (hi (rect p.1) (rect p.2))) p.2.box = some b ∧ l = b - a) := by
  unfold Subset.localEdge at hl
  rw [signEdge_eq F h hp hc, Option.bind_some] at hl
  by_cases hs : (sg F p.2).1 ≠ 1
  · rw [if_pos hs] at hl
    exact Or.inl ⟨hs, (Option.some.inj hl).symm⟩
  · rw [if_neg hs] at hl
    obtain ⟨o, so⟩ := Side.of_wide hp.disj hp.wide
    have hfac := (so.facts hp.posU hp.posC).fac
    rw [hp.pB_eq] at hl
    unfold pI at hl
    rw [hfac, Option.bind_some] at hl
    simp only at hl
    cases ha : S.localPoint F (vbox (lo (rect p.1) (rect p.2))) p.2.box with
    | none => rw [ha] at hl; cases hl
    | some a =>
      cases hb : S.localPoint F (vbox (hi (rect p.1) (rect p.2))) p.2.box with
      | none => rw [ha, hb] at hl; cases hl
      | some b =>
        rw [ha, hb] at hl
        refine Or.inr ⟨not_not.1 hs, a, b, rfl, rfl, ?_⟩
        rw [← Option.some.inj hl]; ring

/-- the sign of the second component at a vertex when it is not given by the edges -/
noncomputable def tV (S : Subset ℝ) (f₂ : ℝ × ℝ → ℝ) (v : ℝ × ℝ) : Int :=
  if (S.at v).length = 2 ∧ foldSg F (S.at v) = some (1, 0) then sgn2 f₂ v else 0

/-- the difference when the vertex joins several boxes -/
noncomputable def tC (S : Subset ℝ) (f₂ : ℝ × ℝ → ℝ) (k : Leaf ℝ × (ℝ × ℝ)) : Int :=
  if (S.at k.2).length ≠ 2 ∧ (sg F k.1).1 = 1 ∧ (S.atOn k.2 k.1.box).length = 2 ∧ k.1 ∈ S.outs then
    sgn2 f₂ k.2 - (if sg F k.1 = (1, 1) then 1 else 0) else 0

/-- the function and its enclosure around the subset -/
structure Encl (S : Subset ℝ) (f₁ f₂ : ℝ × ℝ → ℝ) : Prop where
  mem : ∀ c ∈ S.outs, ∀ z ∈ region rect S.items, (rect c).Mem z → f₁ z ∈ (F c.box).1 ∧ f₂ z ∈ (F c.box).2
  sep : ∀ c ∈ S.outs, (∃ z ∈ region rect S.items, (rect c).Mem z) → ¬ ((0 : ℝ) ∈ (F c.box).1 ∧ (0 : ℝ) ∈ (F c.box).2)

variable {F}

theorem Encl.sign2 {S : Subset ℝ} {f₁ f₂ : ℝ × ℝ → ℝ} (he : Encl F S f₁ f₂) {c : Leaf ℝ} (hc : c ∈ S.outs) {z : ℝ × ℝ}
    (hz : z ∈ region rect S.items) (hm : (rect c).Mem z) :
    (sg F c).2 = 0 ∨ ((sg F c).2 = 1 ∧ sgn2 f₂ z = 1) ∨ ((sg F c).2 = -1 ∧ sgn2 f₂ z = 0) := by
  have h2 := (he.mem c hc z hz hm).2
  rcases sign_cases (I := (F c.box).2) with ⟨h, _⟩ | ⟨h, h'⟩ | ⟨h, h'⟩
  · exact Or.inl h
  · refine Or.inr (Or.inl ⟨h, ?_⟩)
    unfold sgn2
    rw [if_pos (h' _ h2)]
  · refine Or.inr (Or.inr ⟨h, ?_⟩)
    unfold sgn2
    rw [if_neg (not_lt.2 (h' _ h2).le)]

theorem Encl.sg_ne {S : Subset ℝ} {f₁ f₂ : ℝ × ℝ → ℝ} (he : Encl F S f₁ f₂) {c : Leaf ℝ} (hc : c ∈ S.outs) {z : ℝ × ℝ}
    (hz : z ∈ region rect S.items) (hm : (rect c).Mem z) : ¬ ((sg F c).1 = 0 ∧ (sg F c).2 = 0) := by
  rintro ⟨h1, h2⟩
  refine he.sep c hc ⟨z, hz, hm⟩ ⟨?_, ?_⟩
  · rcases sign_cases (I := (F c.box).1) with ⟨_, h⟩ | ⟨h, _⟩ | ⟨h, _⟩
    · exact h
    · have h1 : sign (F c.box).1 = 0 := h1
      rw [h] at h1; cases h1
    · have h1 : sign (F c.box).1 = 0 := h1
      rw [h] at h1; cases h1
  · rcases sign_cases (I := (F c.box).2) with ⟨_, h⟩ | ⟨h, _⟩ | ⟨h, _⟩
    · exact h
    · have h2 : sign (F c.box).2 = 0 := h2
      rw [h] at h2; cases h2
    · have h2 : sign (F c.box).2 = 0 := h2
      rw [h] at h2; cases h2

theorem pair_region {S : Subset ℝ} {p : Leaf ℝ × Leaf ℝ} (hp : PairFacts S p) {v : ℝ × ℝ} (hv : (pI p).Mem v) :
    v ∈ region rect S.items ∧ (rect p.2).Mem v := by
  have := mem_inter.1 hv
  exact ⟨⟨p.1, hp.item, this.1⟩, this.2⟩

/-- the merged sign of two edges at a vertex -/
theorem merged {S : Subset ℝ} {f₁ f₂ : ℝ × ℝ → ℝ} (h : S.Good) (he : Encl F S f₁ f₂) {v : ℝ × ℝ} {s : Int × Int} (h2 : (S.at v).length = 2)
    (hs : foldSg F (S.at v) = some s) :
    (∀ p ∈ S.at v, ((sg F p.2).1 ≠ 0 → s.1 = (sg F p.2).1) ∧ ((sg F p.2).2 ≠ 0 → s.2 = (sg F p.2).2)) ∧
      (s.2 = 0 ∨ (s.2 = 1 ∧ sgn2 f₂ v = 1) ∨ (s.2 = -1 ∧ sgn2 f₂ v = 0)) := by
  match hq : S.at v, h2 with
  | [p1, p2], _ =>
    have m1 : p1 ∈ S.at v := by rw [hq]; simp
    have m2 : p2 ∈ S.at v := by rw [hq]; simp
    rw [hq, foldSg_two] at hs
    obtain ⟨⟨a1, a2, a3⟩, b1, b2, b3⟩ := merge_some hs
    constructor
    · intro p hp
      rcases List.mem_cons.1 hp with rfl | hp
      · exact ⟨a1, b1⟩
      · obtain rfl := List.mem_singleton.1 hp
        exact ⟨a2, b2⟩
    · have key : ∀ p ∈ S.at v, (sg F p.2).2 = 0 ∨ ((sg F p.2).2 = 1 ∧ sgn2 f₂ v = 1) ∨ ((sg F p.2).2 = -1 ∧ sgn2 f₂ v = 0) := by
        intro p hp
        obtain ⟨k1, k2⟩ := (mem_at h).1 hp
        have hf := h.mem_pairs k1
        obtain ⟨r1, r2⟩ := pair_region hf k2
        exact he.sign2 hf.out r1 r2
      rcases b3 with b3 | b3
      · rw [b3]; exact key p1 m1
      · rw [b3]; exact key p2 m2

/-- at a vertex of an edge whose first sign is positive -/
theorem vertex_pos {S : Subset ℝ} {f₁ f₂ : ℝ × ℝ → ℝ} (h : S.Good) (he : Encl F S f₁ f₂)
    (hall : ∀ p ∈ S.pairs, S.coface (pB p) = some p.2.box) {p : Leaf ℝ × Leaf ℝ} (hp : p ∈ S.pairs) (hs1 : (sg F p.2).1 = 1) {v : ℝ × ℝ}
    (hv : (pI p).Mem v) {L : Int} (hL : S.localPoint F (vbox v) p.2.box = some L) : sgn2 f₂ v - L = tV F S f₂ v + tC F S f₂ (p.2, v) := by
  obtain ⟨s, hs, rfl⟩ := localPoint_some F hL
  have hf := h.mem_pairs hp
  have hpa : p ∈ S.at v := (mem_at h).2 ⟨hp, hv⟩
  by_cases h2 : (S.at v).length = 2
  · have hs' : foldSg F (S.at v) = some s := by
      rcases signPoint_some F h hall hs with ⟨k1, k2⟩ | ⟨_, k2⟩
      · have : S.atOn v p.2.box = S.at v := List.Sublist.eq_of_length List.filter_sublist (by rw [h2]; exact k1)
        rw [this] at k2; exact k2
      · exact k2
    obtain ⟨m1, m2⟩ := merged h he h2 hs'
    have e1 : s.1 = 1 := by rw [(m1 p hpa).1 (by rw [hs1]; decide), hs1]
    have eC : tC F S f₂ (p.2, v) = 0 := if_neg fun hc => hc.1 h2
    rw [eC, add_zero]
    unfold tV
    rw [hs']
    obtain ⟨s1, s2⟩ := s
    simp only at e1 m2
    subst e1
    rcases m2 with rfl | ⟨rfl, e⟩ | ⟨rfl, e⟩
    · rw [if_neg (by decide), if_pos ⟨h2, rfl⟩, sub_zero]
    · rw [if_pos rfl, if_neg (by rintro ⟨_, hc⟩; exact absurd hc (by decide)), e]; rfl
    · rw [if_neg (by decide), if_neg (by rintro ⟨_, hc⟩; exact absurd hc (by decide)), e]; rfl
  · rcases signPoint_some F h hall hs with ⟨k1, k2⟩ | ⟨k1, _⟩
    · have eV : tV F S f₂ v = 0 := if_neg fun hc => h2 hc.1
      have eC : tC F S f₂ (p.2, v) = sgn2 f₂ v - (if sg F p.2 = (1, 1) then 1 else 0) := if_pos ⟨h2, hs1, k1, hf.out⟩
      have es : s = sg F p.2 := by
        obtain ⟨ha, _⟩ := atOn_eq h hall (v := v) hf.out
        match hq : S.atOn v p.2.box, k1 with
        | [p1, p2], _ =>
          rw [hq] at ha k2
          rw [foldSg_two, ha p1 (by simp), ha p2 (by simp)] at k2
          exact merge_self k2
      rw [eV, eC, zero_add, es]
    · exact absurd k1 h2

/-- at a vertex of an edge whose first sign is not positive -/
theorem vertex_neg {S : Subset ℝ} {f₁ f₂ : ℝ × ℝ → ℝ} (h : S.Good) (he : Encl F S f₁ f₂) {p : Leaf ℝ × Leaf ℝ} (hp : p ∈ S.pairs)
    (hs1 : (sg F p.2).1 ≠ 1) {v : ℝ × ℝ} (hv : (pI p).Mem v) : tV F S f₂ v + tC F S f₂ (p.2, v) = 0 := by
  have hf := h.mem_pairs hp
  have hpa : p ∈ S.at v := (mem_at h).2 ⟨hp, hv⟩
  have eC : tC F S f₂ (p.2, v) = 0 := if_neg fun hc => hs1 hc.2.1
  rw [eC, add_zero]
  unfold tV
  rw [if_neg]
  rintro ⟨h2, hs⟩
  obtain ⟨m1, _⟩ := merged h he h2 hs
  obtain ⟨r1, r2⟩ := pair_region hf hv
  refine he.sg_ne hf.out r1 r2 ⟨?_, ?_⟩
  · by_contra hc
    exact hs1 ((m1 p hpa).1 hc).symm
  · by_contra hc
    exact hc ((m1 p hpa).2 hc).symm

/-- the sides on which the first component is known to be positive -/
noncomputable def tauOf (F : Box ℝ → Itv ℝ × Itv ℝ) (c : Leaf ℝ) : Int := if (sg F c).1 = 1 then 1 else 0

theorem tauOf_spec {S : Subset ℝ} {f₁ f₂ : ℝ × ℝ → ℝ} (he : Encl F S f₁ f₂) {C : Leaf ℝ} (hC : C ∈ S.outs) :
    (tauOf F C = 1 ∧ ∀ z ∈ region rect S.items, (rect C).Mem z → 0 < f₁ z) ∨ (tauOf F C = 0 ∧ ((∀ z ∈ region rect S.items, (rect C).Mem z → f₁ z < 0) ∨
      (∀ z ∈ region rect S.items, (rect C).Mem z → 0 < f₂ z) ∨ ∀ z ∈ region rect S.items, (rect C).Mem z → f₂ z < 0)) := by
  by_cases hs1 : (sg F C).1 = 1
  · left
    refine ⟨if_pos hs1, fun z hz hm => ?_⟩
    rcases sign_cases (I := (F C.box).1) with ⟨k, _⟩ | ⟨_, k⟩ | ⟨k, _⟩
    · have hs1 : sign (F C.box).1 = 1 := hs1
      rw [k] at hs1; cases hs1
    · exact k _ (he.mem C hC z hz hm).1
    · have hs1 : sign (F C.box).1 = 1 := hs1
      rw [k] at hs1; cases hs1
  · right
    refine ⟨if_neg hs1, ?_⟩
    rcases sign_cases (I := (F C.box).1) with ⟨k, _⟩ | ⟨k, _⟩ | ⟨_, k⟩
    · rcases sign_cases (I := (F C.box).2) with ⟨k', _⟩ | ⟨_, k'⟩ | ⟨_, k'⟩
      · left
        intro z hz hm
        exact absurd ⟨k, k'⟩ (he.sg_ne hC hz hm)
      · right; left
        exact fun z hz hm => k' _ (he.mem C hC z hz hm).2
      · right; right
        exact fun z hz hm => k' _ (he.mem C hC z hz hm).2
    · exact absurd k hs1
    · left
      exact fun z hz hm => k _ (he.mem C hC z hz hm).1

/-- The degree is the sum, on the boundary, of the changes of sign of the second component where the first one is known to be positive. -/
theorem degree_eq {S : Subset ℝ} (h : S.Good) {f₁ f₂ : ℝ × ℝ → ℝ} (he : Encl F S f₁ f₂) {root : RR} (hst : S.strictlyIncluded = true)
    (hset : Setup rect root (S.root.leaves 0 []) S.items S.outs)
    {d : Int} (hd : S.degree F = some d) :
    d = (S.items.map fun U => (S.outs.map fun C => tauOf F C * dEdge (sgn2 f₂) (rect U) (rect C)).sum).sum := by
  classical
  unfold Subset.degree at hd
  rw [if_neg (by simp [hst])] at hd
  split at hd
  · cases hd
  · have hb : S.boundary = S.pairs.map pB := rfl
    rw [hb] at hd
    obtain ⟨hall', hsum⟩ := degreeLoop_some F h S.pairs (fun p hp => h.mem_pairs hp) hd
    have hall : ∀ p ∈ S.pairs, S.coface (pB p) = some p.2.box := fun p hp => (hall' p hp).1
    have z1 := h.sum_pairs (tauOf F) (sgn2 f₂)
    have z2 : (S.pairs.map fun p => (1 : Int) * dEdge (tV F S f₂) (rect p.1) (rect p.2)).sum = 0 := by
      rw [h.sum_pairs fun _ => 1]
      have := balance hset (tV F S f₂)
      simpa using this
    have z3 : (S.pairs.map fun p => orientation (pB p) p.2.box *
        (tC F S f₂ (p.2, hi (rect p.1) (rect p.2)) - tC F S f₂ (p.2, lo (rect p.1) (rect p.2)))).sum = 0 := by
      refine sum_by_key S.pairs (fun p => orientation (pB p) p.2.box) (fun p => (p.2, hi (rect p.1) (rect p.2)))
        (fun p => (p.2, lo (rect p.1) (rect p.2))) (tC F S f₂) ?_
      rintro ⟨c, v⟩ hk
      have hk' : (S.at v).length ≠ 2 ∧ (sg F c).1 = 1 ∧ (S.atOn v c.box).length = 2 ∧ c ∈ S.outs := by
        by_contra hc
        exact hk (if_neg hc)
      exact ends_cancel h hall hk'.2.2.2 hk'.2.2.1
    have e : ∀ p ∈ S.pairs, orientation (pB p) p.2.box * (S.localEdge F (pB p) p.2.box).getD 0 =
        tauOf F p.2 * dEdge (sgn2 f₂) (rect p.1) (rect p.2) - 1 * dEdge (tV F S f₂) (rect p.1) (rect p.2) -
          orientation (pB p) p.2.box * (tC F S f₂ (p.2, hi (rect p.1) (rect p.2)) - tC F S f₂ (p.2, lo (rect p.1) (rect p.2))) := by
      intro p hp
      have hf := h.mem_pairs hp
      obtain ⟨hc, l, hl⟩ := hall' p hp
      obtain ⟨o, so⟩ := Side.of_wide hf.disj hf.wide
      have sf := so.facts hf.posU hf.posC
      have ho : orientation (pB p) p.2.box = o := by
        rw [hf.pB_eq, hf.boxC]; exact sf.ori
      rw [ho, sf.diff, sf.diff, hl, Option.getD_some]
      rcases localEdge_some F h hf hc hl with ⟨k, rfl⟩ | ⟨k, a, b, ha, hb, rfl⟩
      · have e1 := vertex_neg h he hp k (lo_mem hf.wide.1)
        have e2 := vertex_neg h he hp k (hi_mem hf.wide.1)
        have eτ : tauOf F p.2 = 0 := if_neg k
        rw [eτ]
        linear_combination o * e2 - o * e1
      · have e1 := vertex_pos h he hall hp k (lo_mem hf.wide.1) ha
        have e2 := vertex_pos h he hall hp k (hi_mem hf.wide.1) hb
        have eτ : tauOf F p.2 = 1 := if_pos k
        rw [eτ]
        linear_combination o * e1 - o * e2
    rw [hsum, List.map_congr_left e, zero_add]
    have sub : ∀ (l : List (Leaf ℝ × Leaf ℝ)) (a b c : Leaf ℝ × Leaf ℝ → Int),
        (l.map fun p => a p - b p - c p).sum = (l.map a).sum - (l.map b).sum - (l.map c).sum := by
      intro l a b c
      induction l with
      | nil => simp
      | cons x l ih => simp only [List.map_cons, List.sum_cons, ih]; ring
    rw [sub, z1, z2, z3]
    ring

/-- A function without zero on the subset has degree zero. -/
theorem degree_zero {S : Subset ℝ} (h : S.Good) {f₁ f₂ : ℝ × ℝ → ℝ} (h₁ : ContinuousOn f₁ (region rect S.items))
    (h₂ : ContinuousOn f₂ (region rect S.items)) (he : Encl F S f₁ f₂) (h0 : ∀ z ∈ region rect S.items, ¬ (f₁ z = 0 ∧ f₂ z = 0))
    {d : Int} (hd : S.degree F = some d) : d = 0 := by
  by_cases hst : S.strictlyIncluded = true
  · obtain ⟨root, hset⟩ := h.setup hst
    rw [degree_eq h he hst hset hd]
    exact no_zero_sum hset h₁ h₂ h0 (tauOf F) fun C hC => tauOf_spec he hC
  · unfold Subset.degree at hd
    rw [if_pos (by simpa using hst)] at hd
    exact (Option.some.inj hd).symm

end

end Deg
end Codac
