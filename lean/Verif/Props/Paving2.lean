import Verif.Props.Box2

/-!
# C92: pavings of codac2 (`Paving`)
-/

set_option linter.unusedSectionVars false

namespace Codac.Props

open Codac.Bx Codac.Pav2

section field

variable {K : Type*} [Field K] [LinearOrder K] [IsStrictOrderedRing K]

/-- an operation allowed for a set `S` of points: any bisection, and the contractions that remove no point of `S` and add no point (`n` components) -/
def OpFor2 (n : Nat) (S : List K → Prop) : Op K → Prop
  | .bisect _ _ => True
  | .contract _ f => ∀ X : Box K, X.length = n → (f X).length = n ∧ (∀ v, InBox v (f X) → InBox v X) ∧ ∀ v, S v → InBox v X → InBox v (f X)

theorem contractHere_spec {f : Box K → Box K} {p p' : Pav K} (h : Pav.contractHere f p = some p') : ∃ x, p = .leaf x ∧ p' = .leaf (f x) := by
  cases p with
  | leaf x => exact ⟨x, rfl, (Option.some.inj h).symm⟩
  | node => cases h

theorem run_spec {n : Nat} {S : List K → Prop} {o : Op K} (ho : OpFor2 n S o) {p p' : Pav K} (hp : p.Sized n) (h : o.run p = some p') :
    p'.Sized n ∧ ∀ v, (p'.Has v → p.Has v) ∧ (S v → p.Has v → p'.Has v) := by
  have mono : ∀ (v : List K) (P Q T : Prop), ((Q → P) ∧ (S v → P → Q)) → ((Q ∨ T → P ∨ T) ∧ (S v → P ∨ T → Q ∨ T)) := by tauto
  have mono' : ∀ (v : List K) (P Q T : Prop), ((Q → P) ∧ (S v → P → Q)) → ((T ∨ Q → T ∨ P) ∧ (S v → T ∨ P → T ∨ Q)) := by tauto
  cases o with
  | bisect path c =>
    refine ⟨Pav.change_sized (fun _ _ h1 h2 => bisectHere_sized h1 h2) hp h, ?_⟩
    exact Pav.change_has (R := fun v P Q => (Q → P) ∧ (S v → P → Q)) mono mono' (fun q q' _ h v => ⟨(bisectHere_has h v).mp, fun _ => (bisectHere_has h v).mpr⟩) hp h
  | contract path f =>
    refine ⟨Pav.change_sized (fun q q' h1 h2 => ?_) hp h, ?_⟩
    · obtain ⟨x, rfl, rfl⟩ := contractHere_spec h2
      exact (ho x h1).1
    · refine Pav.change_has (R := fun v P Q => (Q → P) ∧ (S v → P → Q)) mono mono' (fun q q' h1 h2 v => ?_) hp h
      obtain ⟨x, rfl, rfl⟩ := contractHere_spec h2
      exact ⟨(ho x h1).2.1 v, (ho x h1).2.2 v⟩

/-- **C92 (history).** Start from one box and apply any sequence of bisections of leaves and of contractions of boxes of leaves that keep the points of `S`, in any order: the boxes of the
leaves stay in the initial box and contain all its points of `S`. -/
theorem C92_history {n : Nat} {S : List K → Prop} {X : Box K} (hX : X.length = n) {ops : List (Op K)} (ho : ∀ o ∈ ops, OpFor2 n S o) {p : Pav K}
    (h : runAll ops (.leaf X) = some p) : p.Sized n ∧ (∀ v, p.Has v → InBox v X) ∧ ∀ v, S v → InBox v X → p.Has v := by
  have gen : ∀ (ops : List (Op K)) (q : Pav K), q.Sized n → (∀ o ∈ ops, OpFor2 n S o) → runAll ops q = some p →
      p.Sized n ∧ (∀ v, p.Has v → q.Has v) ∧ ∀ v, S v → q.Has v → p.Has v := by
    intro ops
    induction ops with
    | nil =>
      intro q hq _ h
      have := Option.some.inj h
      subst this
      exact ⟨hq, fun _ h => h, fun _ _ h => h⟩
    | cons o os ih =>
      intro q hq ho h
      obtain ⟨q', h1, h2⟩ := Option.bind_eq_some_iff.mp h
      obtain ⟨k1, k2⟩ := run_spec (ho o (by simp)) hq h1
      obtain ⟨k3, k4, k5⟩ := ih q' k1 (fun o' h' => ho o' (List.mem_cons_of_mem _ h')) h2
      exact ⟨k3, fun v hv => (k2 v).1 (k4 v hv), fun v hs hv => k5 v hs ((k2 v).2 hs hv)⟩
  exact gen ops (.leaf X) hX ho h

/-- **C92 (bisections only).** After any sequence of bisections the leaves have exactly the points of the initial box. -/
theorem C92_bisections {X : Box K} {ops : List (Op K)} (ho : ∀ o ∈ ops, ∃ path c, o = .bisect path c) {p : Pav K} (h : runAll ops (.leaf X) = some p) (v : List K) :
    p.Has v ↔ InBox v X := by
  obtain ⟨-, h1, h2⟩ := C92_history (n := X.length) (S := fun _ => True) rfl (fun o h => by obtain ⟨_, _, rfl⟩ := ho o h; trivial) h
  exact ⟨h1 v, h2 v trivial⟩

/-- **C92 (emptiness).** `is_empty()` says exactly whether no leaf has a point. -/
theorem C92_is_empty (p : Pav K) : p.isEmpty = true ↔ ∀ v, ¬ p.Has v := Pav.isEmpty_iff

/-- **C92 (list of boxes).** With a static size and no argument, `boxes_list()` gives boxes that are not empty and whose points are exactly the points of the leaves. -/
theorem C92_boxes_list {n : Nat} {p : Pav K} (hp : p.Sized n) :
    ∃ l, Pav.boxesList (some n) p (Pav.whole (some n)) = some l ∧ (∀ b ∈ l, ∃ v, InBox v b) ∧ ∀ v, p.Has v ↔ ∃ b ∈ l, InBox v b :=
  ⟨p.full, Pav.boxesPush_whole hp, fun b hb => exists_inBox (Pav.full_nonempty b hb), fun _ => Pav.has_iff_full⟩

/-- **C92 (list of leaves).** The pointers of `leaves_list()` lead to leaves whose boxes are not empty, and the points of these leaves are all the points of the paving. -/
theorem C92_leaves_list (p : Pav K) :
    (∀ path ∈ p.leavesList, ∃ x, p.sub? path = some (.leaf x) ∧ ∃ v, InBox v x) ∧
    ∀ v, p.Has v ↔ ∃ path ∈ p.leavesList, ∃ x, p.sub? path = some (.leaf x) ∧ InBox v x := by
  refine ⟨fun path h => ?_, fun v => ?_⟩
  · obtain ⟨x, h1, h2⟩ := Pav.leavesList_leaf h
    exact ⟨x, h1, exists_inBox h2⟩
  · rw [Pav.has_iff_full]
    constructor
    · rintro ⟨b, hb, hv⟩
      have : some b ∈ p.leavesList.map (fun path => (p.sub? path).map Pav.box) := by
        rw [Pav.leavesList_full]; exact List.mem_map_of_mem hb
      obtain ⟨path, hp, he⟩ := List.mem_map.mp this
      obtain ⟨x, h1, h2⟩ := Pav.leavesList_leaf hp
      rw [h1] at he
      have : x = b := Option.some.inj he
      subst this
      exact ⟨path, hp, x, h1, hv⟩
    · rintro ⟨path, hp, x, h1, hv⟩
      have : some x ∈ p.full.map some := by
        rw [← Pav.leavesList_full]
        exact List.mem_map.mpr ⟨path, hp, by rw [h1]; rfl⟩
      obtain ⟨b, hb, he⟩ := List.mem_map.mp this
      cases he
      exact ⟨_, hb, hv⟩

/-- **C92 (hull).** With a static size, `hull_box()` is the smallest box with all the points of the leaves. -/
theorem C92_hull_box {n : Nat} (hn : 0 < n) {p : Pav K} (hp : p.Sized n) :
    ∃ H, Pav.hullBox (some n) p = some H ∧ (∀ v, p.Has v → InBox v H) ∧ ∀ Z : Box K, (∀ v, p.Has v → InBox v Z) → ∀ v, InBox v H → InBox v Z := by
  obtain ⟨H, h1, -, h2, h3⟩ := Pav.hullBox_spec hn hp
  exact ⟨H, h1, h2, h3⟩

/-- the box `[0,4]×[0,1]` -/
def pv2Box : Box ℚ := [Itv.icc 0 4, Itv.icc 0 1]

/-- a bisection of the root, the right part emptied, a bisection of the left part -/
def pv2Ops : List (Op ℚ) := [.bisect [] halfCut, .contract [true] (fun X => X.map fun _ => ⊥), .bisect [false] halfCut]

/-- the paving they build -/
def pv2Ex : Pav ℚ := .node [Itv.icc 0 4, Itv.icc 0 1] (.node [Itv.icc 0 2, Itv.icc 0 1] (.leaf [Itv.icc 0 1, Itv.icc 0 1]) (.leaf [Itv.icc 1 2, Itv.icc 0 1])) (.leaf [⊥, ⊥])

theorem pv2_ops_ok : ∀ o ∈ pv2Ops, OpFor2 2 (fun _ => False) o := by
  intro o ho
  simp only [pv2Ops, List.mem_cons, List.not_mem_nil, or_false] at ho
  rcases ho with rfl | rfl | rfl
  · trivial
  · refine fun X hX => ⟨by simpa using hX, fun v hv => ?_, fun _ h => h.elim⟩
    match X, hX with
    | [I, J], _ =>
      cases hv with
      | cons h _ => exact absurd h (Itv.not_mem_bot _)
  · trivial

example : (runAll pv2Ops (.leaf pv2Box)).map Pav.leavesList = some [[false, false], [false, true]] := by decide +kernel
example : ((runAll pv2Ops (.leaf pv2Box)).bind fun p => Pav.boxesList (some 2) p [⊤, ⊤]) = some [[Itv.icc 0 1, Itv.icc 0 1], [Itv.icc 1 2, Itv.icc 0 1]] := by decide +kernel
example : ((runAll pv2Ops (.leaf pv2Box)).bind fun p => Pav.hullBox (some 2) p) = some [Itv.icc 0 2, Itv.icc 0 1] := by decide +kernel

example : pv2Ex.Sized 2 := by simp [pv2Ex, Pav.Sized]

/-- **C92 (boxes_list with an argument, fails).** `boxes_list(x)` does not keep only the boxes that intersect `x`: the recursive calls forget the argument. After one bisection of `[0,4]×[0,1]`,
`boxes_list` of the box `[9,10]×[9,10]`, which meets no leaf, still gives the two leaves; before the bisection it gives none. -/
theorem C92_intersect_fails : ∃ p : Pav ℚ, runAll [.bisect [] halfCut] (.leaf pv2Box) = some p ∧ (∀ v, p.Has v → ¬ InBox v [Itv.icc 9 10, Itv.icc 9 10]) ∧
    Pav.boxesList (some 2) p [Itv.icc 9 10, Itv.icc 9 10] = some [[Itv.icc 0 2, Itv.icc 0 1], [Itv.icc 2 4, Itv.icc 0 1]] ∧
    Pav.boxesList (some 2) (.leaf pv2Box) [Itv.icc 9 10, Itv.icc 9 10] = some [] := by
  refine ⟨.node pv2Box (.leaf [Itv.icc 0 2, Itv.icc 0 1]) (.leaf [Itv.icc 2 4, Itv.icc 0 1]), ?_, fun v hv h => ?_, by decide +kernel, by decide +kernel⟩
  · have h1 : isBisectable halfCut pv2Box = true := by decide +kernel
    have h2 : Bx.bisect halfCut pv2Box = some ([Itv.icc 0 2, Itv.icc 0 1], [Itv.icc 2 4, Itv.icc 0 1]) := by decide +kernel
    simp only [runAll, Op.run, Pav.change, Pav.bisectHere, h1, h2, if_true, Option.map_some, Option.bind_some]
  · cases h with
    | @cons x _ w _ h1 _ =>
      have h9 : (9 : ℚ) ≤ x := h1.1
      rcases hv with hv | hv <;> cases hv with
      | cons h2 _ =>
        have := (Itv.mem_icc.mp h2).2
        linarith

/-- **C92 (dynamic size, fails).** With a dynamic size, `boxes_list()` without argument compares every non-empty leaf with a box of size 0 and reads beyond its end, and `hull_box()` of
a paving that was bisected asks for a vector of size -1. -/
theorem C92_dynamic_fails (x : Box K) (hx : Bx.isEmpty x = false) (hn : x ≠ []) :
    Pav.boxesList none (.leaf x) (Pav.whole none) = none ∧ ∀ (y : Box K) (l r : Pav K), Pav.hullBox none (.node y l r) = none := by
  refine ⟨?_, fun _ _ _ => rfl⟩
  unfold Pav.boxesList Pav.boxesPush Pav.intersects?
  rw [if_pos (by simp [hx]), if_neg (by rw [hx]; simp [Pav.whole, Bx.isEmpty]), if_pos (by simpa [Pav.whole, List.length_pos_iff] using hn)]
  rfl

end field

/-- **C92 (volume).** From a bounded box, with cuts strictly inside the intervals: bisections keep the volume of the paving equal to the volume of the box, and contractions can only
lower it; the volume is the sum, over the leaves, of the products of the widths. -/
theorem C92_volume {X : Box ℝ} (hb : BoundedBox X) {ops : List (Op ℝ)} (hc : ∀ path c, .bisect path c ∈ ops → c.Ok) (hf : ∀ path f, .contract path f ∈ ops → ∀ X : Box ℝ, BoxLe (f X) X)
    {p : Pav ℝ} (h : runAll ops (.leaf X) = some p) :
    ∃ a b, p.vol = some a ∧ Pav2.volume X = some b ∧ a ≤ b ∧ ((∀ o ∈ ops, ∃ path c, o = .bisect path c) → a = b) := by
  have gen : ∀ (ops : List (Op ℝ)) (q : Pav ℝ), q.Bounded → (∀ path c, .bisect path c ∈ ops → c.Ok) → (∀ path f, .contract path f ∈ ops → ∀ X : Box ℝ, BoxLe (f X) X) → runAll ops q = some p →
      p.Bounded ∧ p.sumVol ≤ q.sumVol ∧ ((∀ o ∈ ops, ∃ path c, o = .bisect path c) → p.sumVol = q.sumVol) := by
    intro ops
    induction ops with
    | nil =>
      intro q hq _ _ h
      have := Option.some.inj h
      subst this
      exact ⟨hq, le_rfl, fun _ => rfl⟩
    | cons o os ih =>
      intro q hq hc hf h
      obtain ⟨q', h1, h2⟩ := Option.bind_eq_some_iff.mp h
      have hc' : ∀ path c, .bisect path c ∈ os → c.Ok := fun path c hm => hc path c (List.mem_cons_of_mem _ hm)
      have hf' : ∀ path f, .contract path f ∈ os → ∀ X : Box ℝ, BoxLe (f X) X := fun path f hm => hf path f (List.mem_cons_of_mem _ hm)
      cases o with
      | bisect path c =>
        obtain ⟨k1, k2⟩ := Pav.change_vol (R := fun a b => a = b) (fun a b c e => by rw [e]) (fun _ _ hb h => bisectHere_vol (hc path c (by simp)) hb h) hq h1
        obtain ⟨k3, k4, k5⟩ := ih q' k1 hc' hf' h2
        exact ⟨k3, k2 ▸ k4, fun ho => (k5 fun o h => ho o (List.mem_cons_of_mem _ h)).trans k2⟩
      | contract path f =>
        obtain ⟨k1, k2⟩ := Pav.change_vol (R := fun a b => a ≤ b) (fun a b c e => by linarith) (fun _ _ hb h => contractHere_vol (hf path f (by simp)) hb h) hq h1
        obtain ⟨k3, k4, k5⟩ := ih q' k1 hc' hf' h2
        exact ⟨k3, k4.trans k2, fun ho => by obtain ⟨_, _, e⟩ := ho _ (List.mem_cons_self); cases e⟩
  obtain ⟨k1, k2, k3⟩ := gen ops (.leaf X) hb hc hf h
  exact ⟨_, _, Pav.vol_eq k1, volume_prod hb, k2, k3⟩

end Codac.Props
