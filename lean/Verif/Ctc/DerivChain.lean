import Verif.Ctc.DerivBest

/-!
# `CtcDeriv` gives the smallest result: proofs for tubes

After the forward pass, every value of an output gate comes from a value of the input gate; after the backward pass, every value of an
input gate also reaches a value of the output gate: values of gates can be joined, slice after slice, into trajectories.
-/

set_option linter.unusedSectionVars false

namespace Codac.Best
open Codac
variable {K : Type*}

section
variable [LinearOrder K]

/-- the gate of index `j` of a list of cells: `g` is the first one -/
def gateFrom (g : Itv K) : List (Cell K) → Nat → Itv K
  | _, 0 => g
  | [], _ + 1 => ⊤
  | c :: cs, j + 1 => gateFrom c.out cs j

theorem slicesFrom_gates {g : Itv K} {cs : List (Cell K)} {k : Nat} {s : Slice K} (h : (slicesFrom g cs)[k]? = some s) :
    s.inG = gateFrom g cs k ∧ s.outG = gateFrom g cs (k + 1) := by
  induction cs generalizing g k with
  | nil => simp at h
  | cons c cs ih =>
    cases k with
    | zero =>
      simp only [slicesFrom_cons, List.getElem?_cons_zero, Option.some.injEq] at h
      subst h
      cases cs <;> exact ⟨rfl, rfl⟩
    | succ k =>
      simp only [slicesFrom_cons, List.getElem?_cons_succ] at h
      exact ih h

theorem updFrom_gate_ne {u : Setter K} (k j : Nat) (p : Option (Itv K)) (g : Itv K) (cs : List (Cell K)) (h1 : j ≠ k) (h2 : j ≠ k + 1) :
    gateFrom (updFrom u k p g cs).1 (updFrom u k p g cs).2 j = gateFrom g cs j := by
  induction cs generalizing k j p g with
  | nil => simp [updFrom]
  | cons c cs ih =>
    cases k with
    | zero =>
      cases j with
      | zero => exact absurd rfl h1
      | succ j =>
        cases j with
        | zero => exact absurd rfl h2
        | succ j =>
          cases cs with
          | nil => rfl
          | cons c' cs => rfl
    | succ k =>
      cases j with
      | zero => rfl
      | succ j => exact ih k j (some c.cod) c.out (by omega) (by omega)

/-- the slice of index `k` after an update: the setter was called with the envelopes of the neighbours -/
theorem updFrom_gc_at {u : Setter K} (k : Nat) (p : Option (Itv K)) (g : Itv K) (cs : List (Cell K)) {s : Slice K}
    (hp : ∀ c, p = some c → g ≤ c) (h : AllSl (fun s => s.inG ≤ s.cod ∧ s.outG ≤ s.cod) g cs) (hs : (slicesFrom g cs)[k]? = some s) :
    ∃ p' n', LocalGC p' n' s ∧ (slicesFrom (updFrom u k p g cs).1 (updFrom u k p g cs).2)[k]? =
      some ⟨s.lb, s.ub, (u p' n' s).cod, (u p' n' s).inG, (u p' n' s).outG⟩ := by
  induction cs generalizing k p g with
  | nil => simp at hs
  | cons c cs ih =>
    rw [allSl_cons] at h
    cases k with
    | zero =>
      simp only [slicesFrom_cons, List.getElem?_cons_zero, Option.some.injEq] at hs
      subst hs
      refine ⟨p, cs.head?.map Cell.cod, ⟨h.1.1, h.1.2, hp, ?_⟩, by simp [updFrom]⟩
      intro e he
      cases cs with
      | nil => simp at he
      | cons c' cs =>
        simp only [List.head?_cons, Option.map_some, Option.some.injEq] at he
        subst he
        rw [allSl_cons] at h
        exact h.2.1.1
    | succ k =>
      simp only [slicesFrom_cons, List.getElem?_cons_succ] at hs
      obtain ⟨p', n', h1, h2⟩ := ih k (some c.cod) c.out (by rintro e ⟨⟩; exact h.1.2) h.2 hs
      exact ⟨p', n', h1, by simpa [updFrom] using h2⟩

/-- all the slices after an update -/
theorem upd_all {T : Tube K} {u : Setter K} {k : Nat} {s : Slice K} (hg : T.GatesInEnvelopes) (hs : T.slices[k]? = some s) :
    ∃ p n, LocalGC p n s ∧ (T.upd k u).slices[k]? = some ⟨s.lb, s.ub, (u p n s).cod, (u p n s).inG, (u p n s).outG⟩ ∧
      ∀ (j : Nat) s', j ≠ k → (T.upd k u).slices[j]? = some s' → ∃ s0, T.slices[j]? = some s0 ∧ s'.lb = s0.lb ∧ s'.ub = s0.ub ∧
        s'.cod = s0.cod ∧ (j ≠ k + 1 → s'.inG = s0.inG) ∧ (j = k + 1 → s0.inG = s.outG ∧ s'.inG = (u p n s).outG) ∧
        (j + 1 ≠ k → s'.outG = s0.outG) ∧ (j + 1 = k → s0.outG = s.inG ∧ s'.outG = (u p n s).inG) := by
  obtain ⟨p, n, h1, h2⟩ := updFrom_gc_at (u := u) k none T.g0 T.cells (by simp) hg hs
  refine ⟨p, n, h1, h2, ?_⟩
  intro j s' hj hs'
  have hb := congrArg (·[j]?) (upd_bounds T k u)
  have hc := upd_codAt_ne (T := T) (u := u) hj
  simp only [← Tube.slices_bounds, List.getElem?_map] at hb
  rw [hs'] at hb
  cases hs0 : T.slices[j]? with
  | none => rw [hs0] at hb; cases hb
  | some s0 =>
    rw [hs0] at hb
    simp only [Option.map_some, Option.some.injEq, Prod.mk.injEq] at hb
    simp only [Tube.codAt, hs', hs0, Option.map_some, Option.getD_some] at hc
    have a1 := slicesFrom_gates hs'
    have a0 := slicesFrom_gates hs0
    have b1 := slicesFrom_gates h2
    have b0 := slicesFrom_gates hs
    refine ⟨s0, rfl, hb.1, hb.2, hc, ?_, ?_, ?_, ?_⟩
    · intro h; rw [a1.1, a0.1]; exact updFrom_gate_ne k j none T.g0 T.cells hj h
    · rintro rfl; exact ⟨a0.1.trans b0.2.symm, a1.1.trans b1.2.symm⟩
    · intro h; rw [a1.2, a0.2]; exact updFrom_gate_ne k (j + 1) none T.g0 T.cells h (by omega)
    · rintro rfl; exact ⟨a0.2.trans b0.1.symm, a1.2.trans b1.1.symm⟩

theorem slices_succ {a b : K} {g : Itv K} {cs : List (Cell K)} (h : Codac.Tiles a cs b) {k : Nat} {s s' : Slice K}
    (h1 : (slicesFrom g cs)[k]? = some s) (h2 : (slicesFrom g cs)[k + 1]? = some s') : s'.lb = s.ub ∧ s'.inG = s.outG := by
  refine ⟨?_, (slicesFrom_gates h2).1.trans (slicesFrom_gates h1).2.symm⟩
  induction cs generalizing a g k with
  | nil => simp at h1
  | cons c cs ih =>
    obtain ⟨e, -, h3⟩ := h
    cases k with
    | zero =>
      simp only [slicesFrom_cons, List.getElem?_cons_zero, Option.some.injEq] at h1
      subst h1
      cases cs with
      | nil => simp at h2
      | cons c' cs =>
        simp only [slicesFrom_cons, List.getElem?_cons_succ, List.getElem?_cons_zero, Option.some.injEq] at h2
        subst h2
        exact h3.1
    | succ k =>
      simp only [slicesFrom_cons, List.getElem?_cons_succ] at h1 h2
      exact ih h3 h1 h2

theorem slices_lt {a b : K} {g : Itv K} {cs : List (Cell K)} (h : Codac.Tiles a cs b) {j k : Nat} {s s' : Slice K} (hjk : j < k)
    (h1 : (slicesFrom g cs)[j]? = some s) (h2 : (slicesFrom g cs)[k]? = some s') : s.ub ≤ s'.lb := by
  induction cs generalizing a g j k with
  | nil => simp at h1
  | cons c cs ih =>
    obtain ⟨e, -, h3⟩ := h
    cases k with
    | zero => omega
    | succ k =>
      simp only [slicesFrom_cons, List.getElem?_cons_succ] at h2
      cases j with
      | zero =>
        simp only [slicesFrom_cons, List.getElem?_cons_zero, Option.some.injEq] at h1
        subst h1
        exact (h3.mem_bounds (List.mem_of_getElem? h2)).1
      | succ j =>
        simp only [slicesFrom_cons, List.getElem?_cons_succ] at h1
        exact ih h3 (by omega) h1 h2

end

variable [Field K] [LinearOrder K] [IsStrictOrderedRing K]

/-- trajectory of a slice with slopes in `[vl,vu]` -/
def Local (s : Slice K) (vl vu : K) (f : K → K) : Prop := s.Encloses f ∧ Slopes s.lb s.ub vl vu f

theorem Local.congr {s : Slice K} {vl vu : K} {f g : K → K} (hlt : s.lb < s.ub) (h : Local s vl vu f)
    (e : ∀ t, s.lb ≤ t → t ≤ s.ub → g t = f t) : Local s vl vu g := by
  refine ⟨⟨?_, ?_, ?_⟩, ?_⟩
  · rw [e _ le_rfl hlt.le]; exact h.1.1
  · rw [e _ hlt.le le_rfl]; exact h.1.2.1
  · intro t h0 h1; rw [e t h0.le h1.le]; exact h.1.2.2 t h0 h1
  · intro m t h0 h1 h2
    rw [e m h0 (h1.trans h2), e t (h0.trans h1) h2]; exact h.2 m t h0 h1 h2

/-- every value of the output gate comes from a value of the input gate -/
def From (s : Slice K) (vl vu : K) : Prop :=
  ∀ b ∈ s.outG, ∃ a ∈ s.inG, vl * (s.ub - s.lb) ≤ b - a ∧ b - a ≤ vu * (s.ub - s.lb)

/-- every value of the input gate reaches a value of the output gate -/
def To (s : Slice K) (vl vu : K) : Prop :=
  ∀ a ∈ s.inG, ∃ b ∈ s.outG, vl * (s.ub - s.lb) ≤ b - a ∧ b - a ≤ vu * (s.ub - s.lb)

/-- the envelope is the smallest interval around the trajectories of the slice -/
def Env (s : Slice K) (vl vu : K) : Prop :=
  ∀ J : Itv K, (∀ f, Local s vl vu f → ∀ t, s.lb ≤ t → t ≤ s.ub → f t ∈ J) → s.cod ≤ J

theorem join {s : Slice K} {vl vu a b C : K} (hlt : s.lb < s.ub) (hC : s.cod ≤ Itv.icc (-C) C) (hi : s.inG ≤ s.cod) (ho : s.outG ≤ s.cod)
    (ha : a ∈ s.inG) (hb : b ∈ s.outG) (h1 : vl * (s.ub - s.lb) ≤ b - a) (h2 : b - a ≤ vu * (s.ub - s.lb)) :
    ∃ f, Local s vl vu f ∧ f s.lb = a ∧ f s.ub = b := by
  obtain ⟨cl, cu, _, ec, _, _⟩ := eq_icc_of_le hC (Itv.mem_of_le hi ha)
  have ha' := Itv.mem_of_le hi ha
  have hb' := Itv.mem_of_le ho hb
  rw [ec, Itv.mem_icc] at ha' hb'
  obtain ⟨f, hf⟩ := Path.straight hlt h1 h2 ha' hb'
  exact ⟨f, ⟨hf.encloses ha hb ec, hf.slopes⟩, hf.start, hf.stop⟩

/-- what holds at any time of the contraction of the tube `x` -/
structure Base (x : Tube K) (C : K) (vl vu : Nat → K) (f0 : K → K) (T : Tube K) : Prop where
  wf : T.WF
  gc : T.GatesInEnvelopes
  same : SameB T x
  bd : ∀ s ∈ T.slices, s.cod ≤ Itv.icc (-C) C
  sol : ∀ (k : Nat) s, T.slices[k]? = some s → Local s (vl k) (vu k) f0

theorem Base.lt {x T : Tube K} {C : K} {vl vu : Nat → K} {f0 : K → K} (h : Base x C vl vu f0 T) {k : Nat} {s : Slice K}
    (hs : T.slices[k]? = some s) : s.lb < s.ub := (h.wf.tiles.mem_bounds (List.mem_of_getElem? hs)).2.1

/-- one call on a slice -/
theorem Base.step {x T : Tube K} {B C : K} {vl vu : Nat → K} {f0 : K → K} (h : Base x C vl vu f0 T) (hCB : C < B)
    {k : Nat} {s : Slice K} (hs : T.slices[k]? = some s) (hv : vl k ≤ vu k) :
    Base x C vl vu f0 (T.upd k (derivSlice (IArith.exact K) B ⊤ (Itv.icc (vl k) (vu k)))) ∧
    ∃ r, (T.upd k (derivSlice (IArith.exact K) B ⊤ (Itv.icc (vl k) (vu k)))).slices[k]? = some r ∧ r.lb = s.lb ∧ r.ub = s.ub ∧
      Computed s r (vl k) (vu k) ∧
      ∀ (j : Nat) s', j ≠ k → (T.upd k (derivSlice (IArith.exact K) B ⊤ (Itv.icc (vl k) (vu k)))).slices[j]? = some s' →
        ∃ s0, T.slices[j]? = some s0 ∧ s'.lb = s0.lb ∧ s'.ub = s0.ub ∧
        s'.cod = s0.cod ∧ (j ≠ k + 1 → s'.inG = s0.inG) ∧ (j = k + 1 → s0.inG = s.outG ∧ s'.inG = r.outG) ∧
        (j + 1 ≠ k → s'.outG = s0.outG) ∧ (j + 1 = k → s0.outG = s.inG ∧ s'.outG = r.inG) := by
  obtain ⟨p, n, hl, h1, h2⟩ := upd_all (u := derivSlice (IArith.exact K) B ⊤ (Itv.icc (vl k) (vu k))) h.gc hs
  have hsol := h.sol k s hs
  have hc := derivSlice_best (h.lt hs) hl (h.bd s (List.mem_of_getElem? hs)) hCB hv hsol.1 hsol.2
  set r := derivSlice (IArith.exact K) B ⊤ (Itv.icc (vl k) (vu k)) p n s with hr
  have hc' : Computed s ⟨s.lb, s.ub, r.cod, r.inG, r.outG⟩ (vl k) (vu k) := ⟨hc.inG, hc.outG, hc.cod, hc.keeps⟩
  have hnew := hc.keeps f0 hsol.1 hsol.2
  refine ⟨⟨upd_wf h.wf _ _, upd_gc (fun p n s h => derivSlice_gc h) h.gc, (upd_bounds _ _ _).trans h.same, ?_, ?_⟩,
    ⟨s.lb, s.ub, r.cod, r.inG, r.outG⟩, h1, rfl, rfl, hc', h2⟩
  · intro s' hs'
    obtain ⟨j, hj⟩ := List.mem_iff_getElem?.mp hs'
    by_cases e : j = k
    · subst e
      rw [h1] at hj
      injection hj with hj
      subst hj
      refine le_trans (hc.cod s.cod ?_) (h.bd s (List.mem_of_getElem? hs))
      intro f hf _ t h0 h1
      rcases eq_or_lt_of_le h0 with e | h0'
      · exact Itv.mem_of_le hl.inC (e ▸ hf.1)
      rcases eq_or_lt_of_le h1 with e | h1'
      · exact Itv.mem_of_le hl.outC (e ▸ hf.2.1)
      exact hf.2.2 t h0' h1'
    · obtain ⟨s0, hs0, -, -, e3, -⟩ := h2 j s' e hj
      rw [e3]; exact h.bd s0 (List.mem_of_getElem? hs0)
  · intro j s' hj
    by_cases e : j = k
    · subst e
      rw [h1] at hj
      injection hj with hj
      subst hj
      exact ⟨hnew, hsol.2⟩
    · obtain ⟨s0, hs0, e1, e2, e3, i1, i2, o1, o2⟩ := h2 j s' e hj
      have h0 := h.sol j s0 hs0
      refine ⟨⟨?_, ?_, ?_⟩, by rw [e1, e2]; exact h0.2⟩
      · by_cases hj1 : j = k + 1
        · rw [(i2 hj1).2, e1]
          subst hj1
          rw [(slices_succ h.wf.tiles hs hs0).1]
          exact hnew.2.1
        · rw [i1 hj1, e1]; exact h0.1.1
      · by_cases hj1 : j + 1 = k
        · rw [(o2 hj1).2, e2]
          subst hj1
          rw [← (slices_succ h.wf.tiles hs0 hs).1]
          exact hnew.1
        · rw [o1 hj1, e2]; exact h0.1.2.1
      · intro t h3 h4
        rw [e3]; exact h0.1.2.2 t (e1 ▸ h3) (e2 ▸ h4)

theorem Computed.from {s r : Slice K} {vl vu : K} (h : Computed s r vl vu) (e1 : r.lb = s.lb) (e2 : r.ub = s.ub) : From r vl vu := by
  intro b hb
  obtain ⟨hb, a, ha, h1, h2⟩ := (h.outG b).mp hb
  refine ⟨a, (h.inG a).mpr ⟨ha, b, hb, h1, h2⟩, ?_⟩
  rw [e1, e2]; exact ⟨h1, h2⟩

theorem Computed.to {s r : Slice K} {vl vu : K} (h : Computed s r vl vu) (e1 : r.lb = s.lb) (e2 : r.ub = s.ub) : To r vl vu := by
  intro a ha
  obtain ⟨ha, b, hb, h1, h2⟩ := (h.inG a).mp ha
  refine ⟨b, (h.outG b).mpr ⟨hb, a, ha, h1, h2⟩, ?_⟩
  rw [e1, e2]; exact ⟨h1, h2⟩

theorem Computed.env {s r : Slice K} {vl vu : K} (h : Computed s r vl vu) (e1 : r.lb = s.lb) (e2 : r.ub = s.ub) : Env r vl vu := by
  intro J hJ
  refine h.cod J ?_
  intro f hf hs t h0 h1
  have := h.keeps f hf hs
  refine hJ f ⟨⟨by rw [e1]; exact this.1, by rw [e2]; exact this.2.1, ?_⟩, by rw [e1, e2]; exact hs⟩ t (by rw [e1]; exact h0) (by rw [e2]; exact h1)
  intro t h0 h1
  exact this.2.2 t (e1 ▸ h0) (e2 ▸ h1)

/-- the output gate is not contracted when all its values come from the input gate -/
theorem Computed.outG_eq {s r : Slice K} {vl vu : K} (h : Computed s r vl vu) (hf : From s vl vu) : r.outG = s.outG := by
  apply Itv.ext_mem
  intro b
  rw [h.outG]
  exact ⟨fun h => h.1, fun h => ⟨h, hf b h⟩⟩

/-- the forward pass -/
theorem forward {x : Tube K} {B C : K} {vl vu : Nat → K} {f0 : K → K} (hCB : C < B) (hx : Base x C vl vu f0 x)
    (hv : ∀ k, k < x.nbSlices → vl k ≤ vu k) (m : Nat) (hm : m ≤ x.nbSlices) :
    Base x C vl vu f0 ((List.range m).foldl (fun T k => T.upd k (derivSlice (IArith.exact K) B ⊤ (Itv.icc (vl k) (vu k)))) x) ∧
    ∀ (j : Nat) s, j < m → ((List.range m).foldl (fun T k => T.upd k (derivSlice (IArith.exact K) B ⊤ (Itv.icc (vl k) (vu k)))) x).slices[j]? = some s →
      From s (vl j) (vu j) := by
  induction m with
  | zero => exact ⟨hx, fun j s h => absurd h (by omega)⟩
  | succ m ih =>
    obtain ⟨hb, hf⟩ := ih (by omega)
    rw [List.range_succ, List.foldl_append, List.foldl_cons, List.foldl_nil]
    set T := (List.range m).foldl (fun T k => T.upd k (derivSlice (IArith.exact K) B ⊤ (Itv.icc (vl k) (vu k)))) x with hT
    have hlen : m < T.slices.length := by
      have := congrArg List.length hb.same
      rw [List.length_map, List.length_map] at this
      have e := congrArg List.length (Tube.slices_bounds T)
      rw [List.length_map, List.length_map] at e
      rw [e, this]; exact hm
    obtain ⟨s, hs⟩ : ∃ s, T.slices[m]? = some s := ⟨_, List.getElem?_eq_getElem hlen⟩
    obtain ⟨hb', r, hr, e1, e2, hc, hj⟩ := hb.step hCB hs (hv m hm)
    refine ⟨hb', ?_⟩
    intro j s' hjm hs'
    by_cases e : j = m
    · subst e
      rw [hr] at hs'
      injection hs' with hs'
      subst hs'
      exact hc.from e1 e2
    · obtain ⟨s0, hs0, b1, b2, b3, i1, i2, o1, o2⟩ := hj j s' e hs'
      have h0 := hf j s0 (by omega) hs0
      intro b hbm
      have hb0 : b ∈ s0.outG := by
        by_cases hj1 : j + 1 = m
        · rw [(o2 hj1).2] at hbm
          rw [(o2 hj1).1]
          exact ((hc.inG b).mp hbm).1
        · rw [o1 hj1] at hbm; exact hbm
      obtain ⟨a, ha, h1, h2⟩ := h0 b hb0
      refine ⟨a, by rw [i1 (by omega)]; exact ha, ?_⟩
      rw [b1, b2]; exact ⟨h1, h2⟩

/-- the backward pass -/
theorem backward {x : Tube K} {B C : K} {vl vu : Nat → K} {f0 : K → K} (hCB : C < B)
    (hv : ∀ k, k < x.nbSlices → vl k ≤ vu k) (m : Nat) (hm : m ≤ x.nbSlices) {T : Tube K} (hb : Base x C vl vu f0 T)
    (hf : ∀ (j : Nat) s, T.slices[j]? = some s → From s (vl j) (vu j))
    (ht : ∀ (j : Nat) s, m ≤ j → T.slices[j]? = some s → To s (vl j) (vu j) ∧ Env s (vl j) (vu j)) :
    Base x C vl vu f0 ((List.range m).reverse.foldl (fun T k => T.upd k (derivSlice (IArith.exact K) B ⊤ (Itv.icc (vl k) (vu k)))) T) ∧
    ∀ (j : Nat) s, ((List.range m).reverse.foldl (fun T k => T.upd k (derivSlice (IArith.exact K) B ⊤ (Itv.icc (vl k) (vu k)))) T).slices[j]? = some s →
      From s (vl j) (vu j) ∧ To s (vl j) (vu j) ∧ Env s (vl j) (vu j) := by
  induction m generalizing T with
  | zero => exact ⟨hb, fun j s h => ⟨hf j s h, ht j s (by omega) h⟩⟩
  | succ m ih =>
    rw [List.range_succ, List.reverse_append, List.reverse_cons, List.reverse_nil, List.nil_append, List.singleton_append, List.foldl_cons]
    have hlen : m < T.slices.length := by
      have := congrArg List.length hb.same
      rw [List.length_map, List.length_map] at this
      have e := congrArg List.length (Tube.slices_bounds T)
      rw [List.length_map, List.length_map] at e
      rw [e, this]; exact hm
    obtain ⟨s, hs⟩ : ∃ s, T.slices[m]? = some s := ⟨_, List.getElem?_eq_getElem hlen⟩
    obtain ⟨hb', r, hr, e1, e2, hc, hj⟩ := hb.step hCB hs (hv m hm)
    have hout := hc.outG_eq (hf m s hs)
    refine ih (by omega) hb' ?_ ?_
    · intro j s' hs'
      by_cases e : j = m
      · subst e
        rw [hr] at hs'
        injection hs' with hs'
        subst hs'
        exact hc.from e1 e2
      · obtain ⟨s0, hs0, b1, b2, b3, i1, i2, o1, o2⟩ := hj j s' e hs'
        have h0 := hf j s0 hs0
        intro b hbm
        have hb0 : b ∈ s0.outG := by
          by_cases hj1 : j + 1 = m
          · rw [(o2 hj1).2] at hbm
            rw [(o2 hj1).1]
            exact ((hc.inG b).mp hbm).1
          · rw [o1 hj1] at hbm; exact hbm
        obtain ⟨a, ha, h1, h2⟩ := h0 b hb0
        refine ⟨a, ?_, ?_⟩
        · by_cases hj1 : j = m + 1
          · rw [(i2 hj1).2, hout, ← (i2 hj1).1]; exact ha
          · rw [i1 hj1]; exact ha
        · rw [b1, b2]; exact ⟨h1, h2⟩
    · intro j s' hjm hs'
      by_cases e : j = m
      · subst e
        rw [hr] at hs'
        injection hs' with hs'
        subst hs'
        exact ⟨hc.to e1 e2, hc.env e1 e2⟩
      · obtain ⟨s0, hs0, b1, b2, b3, i1, i2, o1, o2⟩ := hj j s' e hs'
        have e0 : s' = s0 := by
          have a1 : s'.inG = s0.inG := by
            by_cases hj1 : j = m + 1
            · rw [(i2 hj1).2, hout, (i2 hj1).1]
            · exact i1 hj1
          have a2 := o1 (by omega)
          cases s'; cases s0
          simp only at b1 b2 b3 a1 a2
          subst b1 b2 b3 a1 a2
          rfl
        rw [e0]
        exact ht j s0 (by omega) hs0

/-- values of gates are joined with what is before -/
theorem left_part {x T : Tube K} {C : K} {vl vu : Nat → K} {f0 : K → K} (hb : Base x C vl vu f0 T)
    (hf : ∀ (j : Nat) s, T.slices[j]? = some s → From s (vl j) (vu j)) (k : Nat) (s : Slice K) (hs : T.slices[k]? = some s) (b : K)
    (hbm : b ∈ s.inG) : ∃ h : K → K, h s.lb = b ∧ ∀ (j : Nat) s', j < k → T.slices[j]? = some s' → Local s' (vl j) (vu j) h := by
  induction k generalizing s b with
  | zero => exact ⟨fun _ => b, rfl, fun j s' h => absurd h (by omega)⟩
  | succ k ih =>
    obtain ⟨s1, hs1⟩ : ∃ s1, T.slices[k]? = some s1 := by
      have := (List.getElem?_eq_some_iff.mp hs).1
      exact ⟨_, List.getElem?_eq_getElem (by omega)⟩
    have hsucc := slices_succ hb.wf.tiles hs1 hs
    rw [hsucc.2] at hbm
    obtain ⟨a, ha, h1, h2⟩ := hf k s1 hs1 b hbm
    have hm1 := List.mem_of_getElem? hs1
    obtain ⟨f, hfl, fa, fb⟩ := join (hb.lt hs1) (hb.bd s1 hm1) (hb.gc s1 hm1).1 (hb.gc s1 hm1).2 ha hbm h1 h2
    obtain ⟨h, ha', hh⟩ := ih s1 hs1 a ha
    refine ⟨fun t => if t ≤ s1.lb then h t else f t, ?_, ?_⟩
    · show (if s.lb ≤ s1.lb then h s.lb else f s.lb) = b
      rw [if_neg (by rw [hsucc.1]; exact not_le.mpr (hb.lt hs1)), hsucc.1, fb]
    · intro j s' hj hs'
      by_cases e : j = k
      · subst e
        rw [hs1] at hs'
        injection hs' with hs'
        subst hs'
        refine hfl.congr (hb.lt hs1) ?_
        intro t h0 _
        rcases eq_or_lt_of_le h0 with e | h0'
        · show (if t ≤ s1.lb then h t else f t) = f t
          rw [if_pos e.ge, ← e, ha', fa]
        · exact if_neg (not_le.mpr h0')
      · refine (hh j s' (by omega) hs').congr (hb.lt hs') ?_
        intro t _ h3
        exact if_pos (h3.trans (slices_lt hb.wf.tiles (by omega) hs' hs1))

/-- values of gates are joined with what is after; `m`: number of slices left -/
theorem right_part {x T : Tube K} {C : K} {vl vu : Nat → K} {f0 : K → K} (hb : Base x C vl vu f0 T)
    (ht : ∀ (j : Nat) s, T.slices[j]? = some s → To s (vl j) (vu j)) (m k : Nat) (hk : k + m + 1 = T.slices.length) (s : Slice K)
    (hs : T.slices[k]? = some s) (b : K)
    (hbm : b ∈ s.outG) : ∃ h : K → K, h s.ub = b ∧ ∀ (j : Nat) s', k < j → T.slices[j]? = some s' → Local s' (vl j) (vu j) h := by
  induction m generalizing k s b with
  | zero =>
    refine ⟨fun _ => b, rfl, ?_⟩
    intro j s' hj hs'
    have := (List.getElem?_eq_some_iff.mp hs').1
    omega
  | succ m ih =>
    obtain ⟨s1, hs1⟩ : ∃ s1, T.slices[k + 1]? = some s1 := ⟨_, List.getElem?_eq_getElem (by omega)⟩
    have hsucc := slices_succ hb.wf.tiles hs hs1
    rw [← hsucc.2] at hbm
    obtain ⟨a, ha, h1, h2⟩ := ht (k + 1) s1 hs1 b hbm
    have hm1 := List.mem_of_getElem? hs1
    obtain ⟨f, hfl, fb, fa⟩ := join (hb.lt hs1) (hb.bd s1 hm1) (hb.gc s1 hm1).1 (hb.gc s1 hm1).2 hbm ha h1 h2
    obtain ⟨h, ha', hh⟩ := ih (k + 1) (by omega) s1 hs1 a ha
    refine ⟨fun t => if s1.ub ≤ t then h t else f t, ?_, ?_⟩
    · show (if s1.ub ≤ s.ub then h s.ub else f s.ub) = b
      rw [if_neg (by rw [← hsucc.1]; exact not_le.mpr (hb.lt hs1)), ← hsucc.1, fb]
    · intro j s' hj hs'
      by_cases e : j = k + 1
      · subst e
        rw [hs1] at hs'
        injection hs' with hs'
        subst hs'
        refine hfl.congr (hb.lt hs1) ?_
        intro t _ h0
        rcases eq_or_lt_of_le h0 with e | h0'
        · show (if s1.ub ≤ t then h t else f t) = f t
          rw [if_pos e.ge, e, ha', fa]
        · exact if_neg (not_le.mpr h0')
      · refine (hh j s' (by omega) hs').congr (hb.lt hs') ?_
        intro t h3 _
        exact if_pos ((slices_lt hb.wf.tiles (by omega) hs1 hs').trans h3)

/-- a trajectory of a slice is a part of a trajectory of the tube -/
theorem whole {x T : Tube K} {C : K} {vl vu : Nat → K} {f0 : K → K} (hb : Base x C vl vu f0 T)
    (hf : ∀ (j : Nat) s, T.slices[j]? = some s → From s (vl j) (vu j)) (ht : ∀ (j : Nat) s, T.slices[j]? = some s → To s (vl j) (vu j))
    {k : Nat} {s : Slice K} (hs : T.slices[k]? = some s) {f : K → K} (hfl : Local s (vl k) (vu k) f) :
    ∃ h : K → K, (∀ t, s.lb ≤ t → t ≤ s.ub → h t = f t) ∧ ∀ (j : Nat) s', T.slices[j]? = some s' → Local s' (vl j) (vu j) h := by
  obtain ⟨l, hl, hl'⟩ := left_part hb hf k s hs _ hfl.1.1
  have hlen := (List.getElem?_eq_some_iff.mp hs).1
  obtain ⟨r, hr, hr'⟩ := right_part hb ht (T.slices.length - (k + 1)) k (by omega) s hs _ hfl.1.2.1
  have hlt := hb.lt hs
  have e : ∀ t, s.lb ≤ t → t ≤ s.ub → (if t ≤ s.lb then l t else if s.ub ≤ t then r t else f t) = f t := by
    intro t h0 h1
    rcases eq_or_lt_of_le h0 with e | h0'
    · rw [if_pos e.ge, ← e, hl]
    rw [if_neg (not_le.mpr h0')]
    rcases eq_or_lt_of_le h1 with e | h1'
    · rw [if_pos e.ge, e, hr]
    rw [if_neg (not_le.mpr h1')]
  refine ⟨fun t => if t ≤ s.lb then l t else if s.ub ≤ t then r t else f t, e, ?_⟩
  intro j s' hs'
  rcases lt_trichotomy j k with h | h | h
  · refine (hl' j s' h hs').congr (hb.lt hs') ?_
    intro t _ h3
    exact if_pos (h3.trans (slices_lt hb.wf.tiles h hs' hs))
  · subst h
    rw [hs] at hs'
    injection hs' with hs'
    subst hs'
    exact hfl.congr hlt e
  · refine (hr' j s' h hs').congr (hb.lt hs') ?_
    intro t h3 _
    have := (slices_lt hb.wf.tiles h hs hs').trans h3
    show (if t ≤ s.lb then l t else if s.ub ≤ t then r t else f t) = r t
    rw [if_neg (not_le.mpr (lt_of_lt_of_le hlt this)), if_pos this]

end Codac.Best
