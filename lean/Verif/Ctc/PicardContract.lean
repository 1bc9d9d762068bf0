import Verif.Ctc.PicardModel
import Verif.Tube.EvalMono

/-! # `CtcPicard`: the tubes only shrink -/

set_option linter.unusedSectionVars false

namespace Codac
variable {K : Type*} [Field K] [LinearOrder K] [IsStrictOrderedRing K] {P : Picard K}

/-- well-formed tubes of slicing `bs`, included in the initial ones -/
def WInv (bs : List (K × K)) (xs xs0 : List (Tube K)) : Prop :=
  List.Forall₂ (fun T T0 => T.WF ∧ T.cells.map (fun c => (c.lb, c.ub)) = bs ∧ T.Within T0) xs xs0

theorem upd_within {T T0 : Tube K} {bs : List (K × K)} {k : Nat} {u : Setter K}
    (h : T.WF ∧ T.cells.map (fun c => (c.lb, c.ub)) = bs ∧ T.Within T0)
    (hu : ∀ p n s, T.slices[k]? = some s → ∀ r : Slice K, r.Below s →
      (u p n r).cod ≤ s.cod ∧ (u p n r).inG ≤ s.inG ∧ (u p n r).outG ≤ s.outG) :
    (T.upd k u).WF ∧ (T.upd k u).cells.map (fun c => (c.lb, c.ub)) = bs ∧ (T.upd k u).Within T0 := by
  refine ⟨upd_wf h.1 _ _, by rw [upd_bounds]; exact h.2.1, ?_⟩
  have hb : (T.upd k u).Below T := upd_below (fun p n s s0 h0 hs => hu p n s0 h0 s hs) (Tube.Below.refl T)
  exact (hb.within (upd_wf h.1 _ _) h.1).trans h.2.2

theorem updAll_within {bs : List (K × K)} {k : Nat} {xs xs0 : List (Tube K)} {us : List (Setter K)} (h : WInv bs xs xs0)
    (hu : ∀ (i : Nat) T u, xs[i]? = some T → us[i]? = some u → ∀ p n s, T.slices[k]? = some s → ∀ r : Slice K, r.Below s →
      (u p n r).cod ≤ s.cod ∧ (u p n r).inG ≤ s.inG ∧ (u p n r).outG ≤ s.outG) : WInv bs (updAll k xs us) xs0 := by
  unfold WInv at *
  induction h generalizing us with
  | nil => cases us <;> exact .nil
  | @cons T T0 Ts Ts0 a h ih =>
    cases us with
    | nil => exact .cons a h
    | cons u us =>
      refine .cons (upd_within a (hu 0 T u rfl rfl)) (ih ?_)
      intro i T' u' h1 h2
      exact hu (i + 1) T' u' (by simpa using h1) (by simpa using h2)

theorem setEnv_below {e : Itv K} {s r : Slice K} (he : e ≤ s.cod) (hr : r.Below s) (p n : Option (Itv K)) :
    (Slice.setEnvelope e true p n r).cod ≤ s.cod ∧ (Slice.setEnvelope e true p n r).inG ≤ s.inG ∧
      (Slice.setEnvelope e true p n r).outG ≤ s.outG := by
  simp only [Slice.setEnvelope, if_true]
  exact ⟨he, inf_le_left.trans hr.inG, inf_le_left.trans hr.outG⟩

theorem gateSet_below {fwd : Bool} {d : K} {y : Itv K} {s r : Slice K} (hr : r.Below s) (p n : Option (Itv K)) :
    (P.gateSet fwd d y p n r).cod ≤ s.cod ∧ (P.gateSet fwd d y p n r).inG ≤ s.inG ∧
      (P.gateSet fwd d y p n r).outG ≤ s.outG := by
  unfold Picard.gateSet
  cases fwd with
  | true =>
    simp only [if_true, Slice.setOutputGate]
    exact ⟨hr.cod, hr.inG, (infOpt_le _ _).trans (inf_le_left.trans (inf_le_left.trans hr.outG))⟩
  | false =>
    simp only [Bool.false_eq_true, if_false, if_true, Slice.setInputGate]
    exact ⟨hr.cod, (infOpt_le _ _).trans (inf_le_left.trans (inf_le_left.trans hr.inG)), hr.outG⟩

theorem guess_within {fuel : Nat} {fwd : Bool} {k : Nat} {b : K × K} {bs : List (K × K)} {xs ys xs0 : List (Tube K)}
    (h : WInv bs xs xs0) (hy : P.guess fuel fwd k b xs = some ys) : WInv bs ys xs0 := by
  unfold Picard.guess at hy
  by_cases h1 : xs.any Tube.isEmpty = true
  · rw [if_pos h1] at hy; cases hy; exact h
  rw [if_neg h1] at hy
  rw [Option.map_eq_some_iff] at hy
  obtain ⟨r, hr, rfl⟩ := hy
  cases r with
  | none => exact h
  | some E =>
    refine updAll_within h ?_
    intro i T u hT hu p n s hs r hr
    rw [List.getElem?_zipWith, List.getElem?_map, hT] at hu
    cases hE : E[i]? with
    | none => rw [hE] at hu; simp at hu
    | some e =>
      rw [hE] at hu
      simp only [Option.map_some, Option.some.injEq] at hu
      subst hu
      refine setEnv_below (le_trans inf_le_left ?_) hr p n
      simp [Tube.codAt, hs]

theorem kth_within {fuel : Nat} {fwd : Bool} {k : Nat} {b : K × K} {bs : List (K × K)} {xs ys xs0 : List (Tube K)}
    (h : WInv bs xs xs0) (hy : P.kth fuel fwd k b xs = some ys) : WInv bs ys xs0 := by
  unfold Picard.kth at hy
  by_cases h1 : xs.any Tube.isEmpty = true
  · rw [if_pos h1] at hy; cases hy; exact h
  rw [if_neg h1, Option.map_eq_some_iff] at hy
  obtain ⟨zs, hz, rfl⟩ := hy
  refine updAll_within (guess_within h hz) ?_
  intro i T u _ hu p n s _ r hr
  rw [List.getElem?_map, Option.map_eq_some_iff] at hu
  obtain ⟨y, -, rfl⟩ := hu
  exact gateSet_below hr p n

theorem WInv.sample {bs : List (K × K)} {xs xs0 : List (Tube K)} (h : WInv bs xs xs0) {k : Nat} {b : K × K}
    (hb : bs[k]? = some b) {t : K} (h1 : b.1 ≤ t) (h2 : t ≤ b.2) : ∃ bs', WInv bs' (xs.map fun T => T.sample t) xs0 := by
  have key : ∀ T T0 : Tube K, (T.WF ∧ T.cells.map (fun c => (c.lb, c.ub)) = bs ∧ T.Within T0) → T.t0 ≤ t ∧ t ≤ T.tf := by
    intro T T0 a
    obtain ⟨s, hs⟩ := exists_slice_of_bounds a.2.1 hb
    have h3 := a.2.1
    rw [← Tube.slices_bounds] at h3
    have h4 : (T.slices.map fun s => (s.lb, s.ub))[k]? = some (s.lb, s.ub) := by rw [List.getElem?_map, hs]; rfl
    rw [h3, hb] at h4
    cases h4
    have := a.1.tiles.mem_bounds (List.mem_of_getElem? hs)
    exact ⟨this.1.trans h1, h2.trans this.2.2⟩
  unfold WInv at *
  cases hx : xs with
  | nil => rw [hx] at h; cases h; exact ⟨[], .nil⟩
  | cons T1 Ts =>
    rw [← hx]
    have hT1 : T1.cells.map (fun c => (c.lb, c.ub)) = bs := by
      rw [hx] at h
      cases h with
      | cons a _ => exact a.2.1
    refine ⟨(T1.sample t).cells.map fun c => (c.lb, c.ub), ?_⟩
    rw [List.forall₂_map_left_iff]
    refine h.imp fun T T0 a => ?_
    obtain ⟨c1, c2⟩ := key T T0 a
    exact ⟨sample_wf a.1 c1 c2, sample_bounds_congr (a.2.1.trans hT1.symm), (sample_within a.1 c1 c2).trans a.2.2⟩

theorem WInv.boundsAt {bs : List (K × K)} {xs xs0 : List (Tube K)} (h : WInv bs xs xs0) {k : Nat} {b : K × K}
    (hb : Picard.boundsAt k xs = some b) : bs[k]? = some b ∧ b.1 < b.2 := by
  unfold Picard.boundsAt at hb
  unfold WInv at h
  cases h with
  | nil => simp at hb
  | @cons T _ _ _ a _ =>
    simp only [List.head?_cons, Option.bind_some] at hb
    refine ⟨by rw [← a.2.1, ← Tube.slices_bounds, List.getElem?_map]; exact hb, ?_⟩
    rw [Option.map_eq_some_iff] at hb
    obtain ⟨s, hs, rfl⟩ := hb
    exact (a.1.tiles.mem_bounds (List.mem_of_getElem? hs)).2.1

theorem fwdLoop_within (pf n k : Nat) {bs : List (K × K)} {xs ys xs0 : List (Tube K)} (h : WInv bs xs xs0)
    (hy : P.fwdLoop pf n k xs = some ys) : ∃ bs', WInv bs' ys xs0 := by
  induction n generalizing k bs xs with
  | zero => cases hy
  | succ n ih =>
    unfold Picard.fwdLoop at hy
    cases hb : Picard.boundsAt k xs with
    | none => rw [hb] at hy; cases hy; exact ⟨bs, h⟩
    | some b =>
      rw [hb] at hy
      obtain ⟨hbk, hlt⟩ := h.boundsAt hb
      dsimp only at hy
      by_cases h1 : P.unb (xs.map fun T => T.codAt k) = true
      swap
      · rw [if_neg h1] at hy; exact ih _ h hy
      rw [if_pos h1, Option.bind_eq_some_iff] at hy
      obtain ⟨zs, hz, hy⟩ := hy
      have hz := kth_within h hz
      by_cases h2 : P.mustSample k b zs = true
      · rw [if_pos h2] at hy
        obtain ⟨bs', hs⟩ := hz.sample hbk (t := (b.1 + b.2) / 2) (by linarith) (by linarith)
        exact ih _ hs hy
      · rw [if_neg h2] at hy; exact ih _ hz hy

theorem bwdLoop_within (pf n k : Nat) {bs : List (K × K)} {xs ys xs0 : List (Tube K)} (h : WInv bs xs xs0)
    (hy : P.bwdLoop pf n k xs = some ys) : ∃ bs', WInv bs' ys xs0 := by
  induction n generalizing k bs xs with
  | zero => cases hy
  | succ n ih =>
    cases k with
    | zero => cases hy; exact ⟨bs, h⟩
    | succ k =>
      unfold Picard.bwdLoop at hy
      cases hb : Picard.boundsAt k xs with
      | none => rw [hb] at hy; cases hy
      | some b =>
        rw [hb] at hy
        obtain ⟨hbk, hlt⟩ := h.boundsAt hb
        dsimp only at hy
        by_cases h1 : P.unb (xs.map fun T => T.codAt k) = true
        swap
        · rw [if_neg h1] at hy; exact ih _ h hy
        rw [if_pos h1, Option.bind_eq_some_iff] at hy
        obtain ⟨zs, hz, hy⟩ := hy
        have hz := kth_within h hz
        by_cases h2 : P.mustSample k b zs = true
        · rw [if_pos h2] at hy
          obtain ⟨bs', hs⟩ := hz.sample hbk (t := (b.1 + b.2) / 2) (by linarith) (by linarith)
          exact ih _ hs hy
        · rw [if_neg h2] at hy; exact ih _ hz hy

theorem restore_within_all {bs bs' : List (K × K)} {xs zs xs0 : List (Tube K)} (hx : WInv bs xs xs0)
    (hz : WInv bs' zs xs) : WInv bs (Picard.restoreSlicing xs zs) xs0 := by
  unfold WInv Picard.restoreSlicing at *
  induction hx generalizing zs with
  | nil => cases hz; exact .nil
  | cons a _ ih =>
    cases hz with
    | cons c hz =>
      refine .cons ⟨opAssign_wf (setEmpty_wf a.1), ?_, (restore_within c.1 a.1 c.2.2).trans a.2.2⟩ (ih hz)
      rw [opAssign_bounds, setEmpty_bounds a.1]; exact a.2.1

theorem WInv.self {bs : List (K × K)} {xs xs0 : List (Tube K)} (h : WInv bs xs xs0) : WInv bs xs xs := by
  unfold WInv at *
  induction h with
  | nil => exact .nil
  | cons a _ ih => exact .cons ⟨a.1, a.2.1, Tube.Within.refl _⟩ ih

theorem WInv.trans {bs bs' : List (K × K)} {xs ys zs : List (Tube K)} (h : WInv bs xs ys) (h' : WInv bs' ys zs) : WInv bs xs zs := by
  unfold WInv at *
  induction h generalizing zs with
  | nil => cases h'; exact .nil
  | cons a _ ih =>
    cases h' with
    | cons c h' => exact .cons ⟨a.1, a.2.1, a.2.2.trans c.2.2⟩ (ih h')

theorem oneWay_within {pf n : Nat} {preserve fwd : Bool} {bs : List (K × K)} {xs ys xs0 : List (Tube K)} (h : WInv bs xs xs0)
    (hy : P.oneWay pf n preserve fwd xs = some ys) : ∃ bs', WInv bs' ys xs0 ∧ (preserve = true → bs' = bs) := by
  unfold Picard.oneWay at hy
  by_cases h1 : xs.any Tube.isEmpty = true
  · rw [if_pos h1] at hy; cases hy; exact ⟨bs, h, fun _ => rfl⟩
  rw [if_neg h1, Option.map_eq_some_iff] at hy
  obtain ⟨zs, hz, rfl⟩ := hy
  have hz : ∃ bs', WInv bs' zs xs := by
    cases fwd with
    | true => exact fwdLoop_within pf n 0 h.self hz
    | false => exact bwdLoop_within pf n _ h.self hz
  obtain ⟨bs', hz⟩ := hz
  cases preserve with
  | false => exact ⟨bs', hz.trans h, by simp⟩
  | true =>
    rw [if_pos rfl]
    exact ⟨bs, restore_within_all h hz, fun _ => rfl⟩

theorem both_within {pf n : Nat} {preserve : Bool} {bs : List (K × K)} {xs ys xs0 : List (Tube K)} (h : WInv bs xs xs0)
    (hy : P.both pf n preserve xs = some ys) : ∃ bs', WInv bs' ys xs0 ∧ (preserve = true → bs' = bs) := by
  unfold Picard.both at hy
  by_cases h1 : xs.any Tube.isEmpty = true
  · rw [if_pos h1] at hy; cases hy; exact ⟨bs, h, fun _ => rfl⟩
  rw [if_neg h1, Option.bind_eq_some_iff] at hy
  obtain ⟨zs, hz, hy⟩ := hy
  obtain ⟨b1, c1, c2⟩ := oneWay_within h hz
  obtain ⟨b2, d1, d2⟩ := oneWay_within c1 hy
  exact ⟨b2, d1, fun e => (d2 e).trans (c2 e)⟩

end Codac
