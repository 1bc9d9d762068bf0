import Verif.Tube.VecOps
import Verif.Tube.MiscProofs
import Verif.Traj.VectorProofs

/-! # Vectors of tubes: proofs about the diameters -/

set_option linter.unusedSectionVars false

namespace Codac.TuVec
open Codac

section order
variable {K : Type*} [LinearOrder K]

theorem tdomain_iff {x : List (Tube K)} {a b : K} : tdomain x = some (a, b) ↔ x ≠ [] ∧ ∀ T ∈ x, T.t0 = a ∧ T.tf = b := by
  cases x with
  | nil => simp [tdomain]
  | cons T l =>
    have e : tdomain (T :: l) = if l.all fun X => decide (X.t0 = T.t0 ∧ X.tf = T.tf) then some (T.t0, T.tf) else none := rfl
    rw [e]
    constructor
    · intro h
      split_ifs at h with hl
      rw [Option.some.injEq, Prod.mk.injEq] at h
      obtain ⟨rfl, rfl⟩ := h
      refine ⟨by simp, fun X hX => ?_⟩
      rcases List.mem_cons.mp hX with rfl | hX
      · exact ⟨rfl, rfl⟩
      · have := List.all_eq_true.mp hl X hX
        simpa using this
    · rintro ⟨-, h⟩
      have h0 := h T (by simp)
      rw [if_pos, h0.1, h0.2]
      rw [List.all_eq_true]
      intro X hX
      have := h X (by simp [hX])
      simp [this, h0]

theorem opAssign_tdomain {φ : Itv K → Itv K → Itv K} (T X : Tube K) : (T.opAssign φ X).t0 = T.t0 ∧ (T.opAssign φ X).tf = T.tf := by
  unfold Tube.opAssign; split_ifs <;> exact ⟨rfl, rfl⟩

theorem containsLoop_spec {cs : List (Option Answer)} {r q : Answer} (h : containsLoop cs r = some q) :
    (q = .yes → r = .yes ∧ ∀ c ∈ cs, c = some .yes) ∧ (q = .no → r = .no ∨ some .no ∈ cs) := by
  induction cs generalizing r with
  | nil => simp only [containsLoop, Option.some.injEq] at h; subst h; exact ⟨fun h => ⟨h, by simp⟩, fun h => .inl h⟩
  | cons c cs ih =>
    cases c with
    | none => simp [containsLoop] at h
    | some c =>
      cases c with
      | no =>
        simp only [containsLoop, Option.bind_some, Option.some.injEq] at h
        subst h
        exact ⟨fun h => (by cases h), fun _ => .inr (by simp)⟩
      | maybe =>
        obtain ⟨h1, h2⟩ := ih (r := .maybe) h
        refine ⟨fun hq => (by cases (h1 hq).1), fun hq => ?_⟩
        rcases h2 hq with h2 | h2
        · cases h2
        · exact .inr (by simp [h2])
      | yes =>
        obtain ⟨h1, h2⟩ := ih (r := r) h
        refine ⟨fun hq => ⟨(h1 hq).1, ?_⟩, fun hq => ?_⟩
        · intro c hc
          rcases List.mem_cons.mp hc with rfl | hc
          · rfl
          · exact (h1 hq).2 c hc
        · rcases h2 hq with h2 | h2
          · exact .inl h2
          · exact .inr (by simp [h2])

end order

section field
variable {K : Type*} [Field K] [LinearOrder K] [IsStrictOrderedRing K]

/-- the diameter of an interval, when it is a number -/
def wd (X : Itv K) : K := X.width?.getD 0

/-- the points set by the loop of `diam` -/
def diamPts (nx pv : K → K) (gates : Bool) : List (Slice K) → List (K × K)
  | [] => []
  | s :: ss => (nx s.lb, wd s.cod) :: (pv s.ub, wd s.cod) :: ((if gates then [(s.ub, wd s.outG)] else if ss.isEmpty then [(s.ub, wd s.cod)] else []) ++ diamPts nx pv gates ss)

theorem diamLoop_eq (nx pv : K → K) (gates : Bool) (ss : List (Slice K)) (x d : Traj K) (h : diamLoop nx pv gates ss x = some d) :
    d = (diamPts nx pv gates ss).foldl (fun y p => y.set p.2 p.1) x ∧ (∀ s ∈ ss, s.cod.width? = some (wd s.cod)) ∧ (gates = true → ∀ s ∈ ss, s.outG.width? = some (wd s.outG)) := by
  induction ss generalizing x with
  | nil => simp only [diamLoop, Option.some.injEq] at h; subst h; exact ⟨rfl, by simp, by simp⟩
  | cons s ss ih =>
    simp only [diamLoop, Option.bind_eq_some_iff] at h
    obtain ⟨w, hw, h⟩ := h
    have hw' : wd s.cod = w := by simp [wd, hw]
    cases gates with
    | true =>
      simp only [if_true, Option.bind_eq_some_iff] at h
      obtain ⟨g, hg, h⟩ := h
      have hg' : wd s.outG = g := by simp [wd, hg]
      obtain ⟨h1, h2, h3⟩ := ih _ h
      refine ⟨?_, ?_, ?_⟩
      · rw [h1]; simp [diamPts, hw', hg']
      · intro q hq
        rcases List.mem_cons.mp hq with rfl | hq
        · rw [hw, hw']
        · exact h2 q hq
      · intro _ q hq
        rcases List.mem_cons.mp hq with rfl | hq
        · rw [hg, hg']
        · exact h3 rfl q hq
    | false =>
      simp only [Bool.false_eq_true, if_false] at h
      obtain ⟨h1, h2, -⟩ := ih _ h
      refine ⟨?_, ?_, by simp⟩
      · rw [h1]
        by_cases he : ss.isEmpty = true
        · simp [diamPts, hw', he]
        · simp [diamPts, hw', he]
      · intro q hq
        rcases List.mem_cons.mp hq with rfl | hq
        · rw [hw, hw']
        · exact h2 q hq

theorem diamLoop_some (nx pv : K → K) (gates : Bool) (ss : List (Slice K)) (x : Traj K) (h1 : ∀ s ∈ ss, s.cod.width? ≠ none) (h2 : ∀ s ∈ ss, s.outG.width? ≠ none) :
    ∃ d, diamLoop nx pv gates ss x = some d := by
  induction ss generalizing x with
  | nil => exact ⟨x, rfl⟩
  | cons s ss ih =>
    obtain ⟨w, hw⟩ := Option.ne_none_iff_exists'.mp (h1 s (by simp))
    obtain ⟨g, hg⟩ := Option.ne_none_iff_exists'.mp (h2 s (by simp))
    have ih := fun x => ih x (fun s hs => h1 s (by simp [hs])) (fun s hs => h2 s (by simp [hs]))
    cases gates with
    | true => obtain ⟨d, hd⟩ := ih (((x.set w (nx s.lb)).set w (pv s.ub)).set g s.ub); exact ⟨d, by simp [diamLoop, hw, hg, hd]⟩
    | false =>
      obtain ⟨d, hd⟩ := ih (if ss.isEmpty then ((x.set w (nx s.lb)).set w (pv s.ub)).set w s.ub else (x.set w (nx s.lb)).set w (pv s.ub))
      exact ⟨d, by simp only [diamLoop, hw, Option.bind_some, Bool.false_eq_true, if_false]; exact hd⟩

/-- at least two numbers of the machine are strictly between the bounds of the slice -/
def Roomy (nx pv : K → K) (s : Slice K) : Prop := s.lb < nx s.lb ∧ nx s.lb < pv s.ub ∧ pv s.ub < s.ub

theorem diamPts_sorted {nx pv : K → K} {gates : Bool} {cs : List (Cell K)} {a b : K} {g : Itv K} (ht : Tiles a cs b)
    (hr : ∀ s ∈ slicesFrom g cs, Roomy nx pv s) : SortedPts (diamPts nx pv gates (slicesFrom g cs)) ∧ ∀ p ∈ diamPts nx pv gates (slicesFrom g cs), a < p.1 := by
  induction cs generalizing a g with
  | nil => simp [diamPts, SortedPts]
  | cons c cs ih =>
    obtain ⟨rfl, h2, h3⟩ := ht
    rw [slicesFrom_cons] at hr ⊢
    obtain ⟨i1, i2⟩ := ih (g := c.out) h3 fun s hs => hr s (by simp [hs])
    obtain ⟨r1, r2, r3⟩ := hr _ List.mem_cons_self
    dsimp only at r1 r2 r3
    unfold SortedPts at i1 ⊢
    have e : ∀ p ∈ (if gates then [(c.ub, wd c.out)] else if (slicesFrom c.out cs).isEmpty then [(c.ub, wd c.cod)] else []), p.1 = c.ub := by
      intro p hp
      split_ifs at hp <;> simp_all
    have hs : (if gates then [(c.ub, wd c.out)] else if (slicesFrom c.out cs).isEmpty then [(c.ub, wd c.cod)] else []).Pairwise (fun p q : K × K => p.1 < q.1) := by
      split_ifs <;> simp
    simp only [diamPts]
    refine ⟨List.pairwise_cons.mpr ⟨?_, List.pairwise_cons.mpr ⟨?_, List.pairwise_append.mpr ⟨hs, i1, ?_⟩⟩⟩, ?_⟩
    · intro p hp
      rcases List.mem_cons.mp hp with rfl | hp
      · exact r2
      · rcases List.mem_append.mp hp with hp | hp
        · rw [e p hp]; exact r2.trans r3
        · exact (r2.trans r3).trans (i2 p hp)
    · intro p hp
      rcases List.mem_append.mp hp with hp | hp
      · rw [e p hp]; exact r3
      · exact r3.trans (i2 p hp)
    · intro p hp q hq
      rw [e p hp]; exact i2 q hq
    · intro p hp
      rcases List.mem_cons.mp hp with rfl | hp
      · exact r1
      · rcases List.mem_cons.mp hp with rfl | hp
        · exact r1.trans r2
        · rcases List.mem_append.mp hp with hp | hp
          · rw [e p hp]; exact h2
          · exact h2.trans (i2 p hp)

theorem diamPts_split {nx pv : K → K} {gates : Bool} {ss : List (Slice K)} {s : Slice K} (hs : s ∈ ss) :
    (∃ l1 l2, diamPts nx pv gates ss = l1 ++ (nx s.lb, wd s.cod) :: (pv s.ub, wd s.cod) :: l2) ∧ (gates = true → (s.ub, wd s.outG) ∈ diamPts nx pv gates ss) := by
  induction ss with
  | nil => simp at hs
  | cons q ss ih =>
    rcases List.mem_cons.mp hs with rfl | hs
    · exact ⟨⟨[], _, rfl⟩, fun h => by simp [diamPts, h]⟩
    · obtain ⟨⟨l1, l2, h1⟩, h2⟩ := ih hs
      refine ⟨⟨(nx q.lb, wd q.cod) :: (pv q.ub, wd q.cod) :: ((if gates then [(q.ub, wd q.outG)] else if ss.isEmpty then [(q.ub, wd q.cod)] else []) ++ l1), l2, ?_⟩, fun h => ?_⟩
      · simp [diamPts, h1]
      · simp [diamPts, h2 h]

/-- the instants of `diam` depend only on the slicing -/
def diamKeys (nx pv : K → K) (gates : Bool) : List (K × K) → List K
  | [] => []
  | s :: ss => nx s.1 :: pv s.2 :: ((if gates || ss.isEmpty then [s.2] else []) ++ diamKeys nx pv gates ss)

theorem diamPts_keys (nx pv : K → K) (gates : Bool) (ss : List (Slice K)) :
    (diamPts nx pv gates ss).map Prod.fst = diamKeys nx pv gates (ss.map fun s => (s.lb, s.ub)) := by
  induction ss with
  | nil => rfl
  | cons s ss ih =>
    simp only [diamPts, diamKeys, List.map_cons, List.map_append, ih, List.isEmpty_map]
    cases gates <;> cases ss <;> simp

/-- what `diam` computes -/
theorem diam_eq {nx pv : K → K} {gates : Bool} {T : Tube K} (hT : T.WF) (hr : ∀ s ∈ T.slices, Roomy nx pv s) {d : Traj K} (h : diam nx pv gates T = some d) :
    ∃ w0, TrajOk d ∧ d.pts = (T.t0, w0) :: diamPts nx pv gates T.slices ∧ (gates = true → (T.evalAt T.t0).width? = some w0) ∧
      (∀ s ∈ T.slices, s.cod.width? = some (wd s.cod)) ∧ (gates = true → ∀ s ∈ T.slices, s.outG.width? = some (wd s.outG)) := by
  obtain ⟨t0, tf, g0, cells⟩ := T
  cases cells with
  | nil => exact absurd rfl hT.ne
  | cons c cs =>
    have e : (⟨t0, tf, g0, c :: cs⟩ : Tube K).slices = ⟨c.lb, c.ub, c.cod, g0, c.out⟩ :: slicesFrom c.out cs := rfl
    have hlb : c.lb = t0 := hT.tiles.1
    unfold diam at h
    rw [e] at h
    simp only [Option.bind_eq_some_iff] at h
    obtain ⟨w, hw, h⟩ := h
    obtain ⟨h1, h2, h3⟩ := diamLoop_eq _ _ _ _ _ _ h
    obtain ⟨s1, s2⟩ := diamPts_sorted (gates := gates) (g := g0) hT.tiles hr
    have hp : (Traj.empty.set w c.lb : Traj K).pts = [(t0, w)] := by rw [← hlb]; rfl
    have ht : SortedPts ((Traj.empty.set w c.lb : Traj K).pts ++ diamPts nx pv gates (slicesFrom g0 (c :: cs))) := by
      rw [hp]
      exact List.pairwise_cons.mpr ⟨fun p hp => s2 p hp, s1⟩
    obtain ⟨k1, k2⟩ := foldl_set _ _ (trajOk_empty.set w c.lb) ht
    refine ⟨w, ?_, ?_, ?_, h2, h3⟩
    · rw [h1]; exact k1
    · rw [h1]
      refine k2.trans ?_
      rw [hp]; rfl
    · intro hg
      rw [hg, if_pos rfl] at hw
      have : (⟨t0, tf, g0, c :: cs⟩ : Tube K).evalAt t0 = g0 := by
        have := Tube.evalAt_lb hT (s := ⟨c.lb, c.ub, c.cod, g0, c.out⟩) (by rw [e]; exact List.mem_cons_self)
        rw [hlb] at this
        exact this
      show ((⟨t0, tf, g0, c :: cs⟩ : Tube K).evalAt t0).width? = some w
      rw [this]; exact hw

theorem interp_const {l l1 l2 : List (K × K)} {a b w t : K} (h : l = l1 ++ (a, w) :: (b, w) :: l2) (h1 : a ≤ t) (h2 : t ≤ b) : Interp l t w := by
  rcases eq_or_lt_of_le h1 with rfl | h1
  · exact .inl (by rw [h]; simp)
  · rcases eq_or_lt_of_le h2 with rfl | h2
    · exact .inl (by rw [h]; simp)
    · exact .inr ⟨l1, (a, w), (b, w), l2, h, h1, h2, by simp⟩

theorem diagLoop_eq (sqrt : K → K) (ds : List (Traj K)) (i j : Nat) (ts : List K) (x : Traj K) (h : ∀ t ∈ ts, ∀ d ∈ ds, ∃ v, d.evalAt t = some v) :
    diagLoop sqrt ds i j ts x = some ((TVec.ptsOf (fun t => sqrt ((((ds.map fun d => (d.evalAt t).getD 0).drop i).take (j - i + 1)).map fun a => a ^ 2).sum) ts).foldl
      (fun y p => y.set p.2 p.1) x) := by
  induction ts generalizing x with
  | nil => rfl
  | cons t ts ih =>
    have e : TVec.eval ds t = some (ds.map fun d => (d.evalAt t).getD 0) := by
      refine TVec.eval_iff.mpr ⟨by simp, fun k d hd => ?_⟩
      obtain ⟨v, hv⟩ := h t (by simp) d (List.mem_iff_getElem?.mpr ⟨k, hd⟩)
      exact ⟨v, by simp [hd, hv], hv⟩
    rw [show diagLoop sqrt ds i j (t :: ts) x = (TVec.eval ds t).bind fun d =>
      diagLoop sqrt ds i j ts (x.set (sqrt (((d.drop i).take (j - i + 1)).map fun a => a ^ 2).sum) t) from rfl, e, Option.bind_some,
      ih _ fun u hu => h u (by simp [hu])]
    rfl

end field
end Codac.TuVec
