import Verif.Traj.Range
import Verif.Tube.Ops
import Verif.Tube.OpsModel
import Verif.Tube.Merge
import Mathlib.Algebra.Order.Archimedean.Basic
import Mathlib.Algebra.Order.Group.Int

/-! # Tubes built from trajectories; the test `Tube::contains` -/

set_option linter.unusedSectionVars false

namespace Codac

section Build
variable {K : Type*} [LinearOrder K]

/-- `Tube(traj, timestep)`, codac_Tube.cpp:138-144; `ev` is `Trajectory::operator()(Interval)` -/
def Tube.ofTraj [Zero K] (add : K → K → K) (diam : K) (fuel : Nat) (t0 tf step : K) (ev : Itv K → Itv K) : Option (Tube K) :=
  (Tube.ofStep add diam fuel t0 tf step ⊤).map fun T => T.setEmpty.opAssignTraj (· ⊔ ·) ev

/-- `Tube(lb, ub, timestep)`, codac_Tube.cpp:146-153 -/
def Tube.ofTwoTrajs [Zero K] (add : K → K → K) (diam : K) (fuel : Nat) (t0 tf step : K) (evl evu : Itv K → Itv K) : Option (Tube K) :=
  (Tube.ofStep add diam fuel t0 tf step ⊤).map fun T => (T.setEmpty.opAssignTraj (· ⊔ ·) evl).opAssignTraj (· ⊔ ·) evu

/-- `ev` encloses the values of `f` over the sub-intervals of `[a,b]` -/
def EnclosesOn (ev : Itv K → Itv K) (f : K → K) (a b : K) : Prop := ∀ u v, a ≤ u → u ≤ v → v ≤ b → ∀ t, u ≤ t → t ≤ v → f t ∈ ev (Itv.icc u v)

theorem point_eq_icc (t : K) : Itv.point t = Itv.icc t t := by rw [Itv.icc_eq_mk le_rfl]; rfl

theorem opAssignTraj_slices {φ : Itv K → Itv K → Itv K} {ev : Itv K → Itv K} {T : Tube K} (h : T.WF) :
    (T.opAssignTraj φ ev).slices = T.slices.map fun s =>
      ⟨s.lb, s.ub, φ s.cod (ev (Itv.icc s.lb s.ub)), φ s.inG (ev (Itv.point s.lb)), φ s.outG (ev (Itv.point s.ub))⟩ :=
  mapWith_slices _ _ h

theorem opAssignTraj_wf {φ : Itv K → Itv K → Itv K} {ev : Itv K → Itv K} {T : Tube K} (h : T.WF) : (T.opAssignTraj φ ev).WF := mapWith_wf _ _ h

/-- the union with a trajectory contains what the tube contained -/
theorem unionTraj_old {ev : Itv K → Itv K} {T : Tube K} (h : T.WF) {g : K → K} (hg : T.Encloses g) : (T.opAssignTraj (· ⊔ ·) ev).Encloses g :=
  mapWith_encloses h (fun _ _ _ _ _ h3 => Itv.mem_sup_left h3) (fun _ _ _ _ h3 => Itv.mem_sup_left h3) hg

/-- the union with a trajectory contains the trajectory -/
theorem unionTraj_new {ev : Itv K → Itv K} {T : Tube K} (h : T.WF) {f : K → K} (hf : EnclosesOn ev f T.t0 T.tf) : (T.opAssignTraj (· ⊔ ·) ev).Encloses f := by
  intro s hs
  rw [opAssignTraj_slices h, List.mem_map] at hs
  obtain ⟨s0, hs0, rfl⟩ := hs
  obtain ⟨h1, h2, h3⟩ := h.tiles.mem_bounds hs0
  refine ⟨Itv.mem_sup_right ?_, Itv.mem_sup_right ?_, fun t h4 h5 => Itv.mem_sup_right ?_⟩
  · rw [point_eq_icc]; exact hf _ _ h1 le_rfl (h2.le.trans h3) _ le_rfl le_rfl
  · rw [point_eq_icc]; exact hf _ _ (h1.trans h2.le) le_rfl h3 _ le_rfl le_rfl
  · exact hf _ _ h1 h2.le h3 _ h4.le h5.le

theorem slice_encloses_between {s : Slice K} {f g k : K → K} (hf : s.Encloses f) (hg : s.Encloses g)
    (hfk : ∀ t, s.lb ≤ t → t ≤ s.ub → f t ≤ k t) (hkg : ∀ t, s.lb ≤ t → t ≤ s.ub → k t ≤ g t) (hlu : s.lb ≤ s.ub) : s.Encloses k :=
  ⟨Itv.mem_of_between hf.1 hg.1 (hfk _ le_rfl hlu) (hkg _ le_rfl hlu), Itv.mem_of_between hf.2.1 hg.2.1 (hfk _ hlu le_rfl) (hkg _ hlu le_rfl),
    fun t h1 h2 => Itv.mem_of_between (hf.2.2 t h1 h2) (hg.2.2 t h1 h2) (hfk t h1.le h2.le) (hkg t h1.le h2.le)⟩

theorem encloses_between {T : Tube K} (h : T.WF) {f g k : K → K} (hf : T.Encloses f) (hg : T.Encloses g)
    (hfk : ∀ t, T.t0 ≤ t → t ≤ T.tf → f t ≤ k t) (hkg : ∀ t, T.t0 ≤ t → t ≤ T.tf → k t ≤ g t) : T.Encloses k := by
  intro s hs
  obtain ⟨h1, h2, h3⟩ := h.tiles.mem_bounds hs
  exact slice_encloses_between (hf s hs) (hg s hs) (fun t h4 h5 => hfk t (h1.trans h4) (h5.trans h3)) (fun t h4 h5 => hkg t (h1.trans h4) (h5.trans h3)) h2.le

end Build

/-! ### contains -/

/-- `BoolInterval` of IBEX, restricted to the values returned here -/
inductive Answer
  | yes | no | maybe
deriving DecidableEq, Repr

section Contains
variable {K : Type*} [LinearOrder K] [Sub K]

/-- the loop over sub-domains of `Slice::contains`, codac_Slice.cpp:410-435. `mid` is the bisection instant `t.lb() + t.diam()/2`, `eps` is
`EPSILON_CONTAINS`; at most `fuel` iterations: `none` means that more are needed. -/
def containsLoop (ev : Itv K → Itv K) (mid : K → K → K) (eps : K) (cod : Itv K) : Nat → List (K × K) → Option Answer
  | _, [] => some .yes
  | 0, _ :: _ => none
  | n + 1, (a, b) :: l =>
    let e := ev (Itv.icc a b)
    if e ⊓ cod = ⊥ then some .no
    else if e ≤ cod then containsLoop ev mid eps cod n l
    else if b - a < eps then some .maybe
    else containsLoop ev mid eps cod n ((mid a b, b) :: (a, mid a b) :: l)

/-- `Slice::contains(const Trajectory&)`, codac_Slice.cpp:385-439 -/
def Slice.contains (ev : Itv K → Itv K) (mid : K → K → K) (eps : K) (fuel : Nat) (s : Slice K) : Option Answer :=
  if ev (Itv.icc s.lb s.ub) ⊓ s.cod = ⊥ ∨ ev (Itv.point s.lb) ⊓ s.inG = ⊥ ∨ ev (Itv.point s.ub) ⊓ s.outG = ⊥ then some .no
  else if ¬ ev (Itv.point s.lb) ≤ s.inG ∨ ¬ ev (Itv.point s.ub) ≤ s.outG then some .maybe
  else if ev (Itv.icc s.lb s.ub) ≤ s.cod then some .yes
  else containsLoop ev mid eps s.cod fuel [(s.lb, s.ub)]

/-- the loop of `Tube::contains`, codac_Tube.cpp:1125-1131 -/
def containsSlices (ev : Itv K → Itv K) (mid : K → K → K) (eps : K) (fuel : Nat) : Answer → List (Slice K) → Option Answer
  | r, [] => some r
  | r, s :: l =>
    match s.contains ev mid eps fuel with
    | none => none
    | some .no => some .no
    | some .maybe => containsSlices ev mid eps fuel .maybe l
    | some .yes => containsSlices ev mid eps fuel r l

/-- `Tube::contains(const Trajectory&)`, codac_Tube.cpp:1121-1134 -/
def Tube.contains (ev : Itv K → Itv K) (mid : K → K → K) (eps : K) (fuel : Nat) (T : Tube K) : Option Answer :=
  containsSlices ev mid eps fuel .yes T.slices

end Contains

section ContainsSound
variable {K : Type*} [LinearOrder K] [Sub K] {ev : Itv K → Itv K} {mid : K → K → K} {eps : K}

theorem not_mem_of_inf_bot {X Y : Itv K} (h : X ⊓ Y = ⊥) {x : K} (hx : x ∈ X) : x ∉ Y := fun hy => by
  have : x ∈ X ⊓ Y := Itv.mem_inf.mpr ⟨hx, hy⟩
  rw [h] at this
  exact this

theorem containsLoop_yes {f : K → K} {cod : Itv K} (hm : ∀ a b, a ≤ b → a ≤ mid a b ∧ mid a b ≤ b) {t0 tf : K} (hev : EnclosesOn ev f t0 tf) :
    ∀ (n : Nat) (l : List (K × K)), (∀ p ∈ l, t0 ≤ p.1 ∧ p.1 ≤ p.2 ∧ p.2 ≤ tf) → containsLoop ev mid eps cod n l = some .yes →
      ∀ p ∈ l, ∀ t, p.1 ≤ t → t ≤ p.2 → f t ∈ cod := by
  intro n
  induction n with
  | zero =>
    intro l _ h
    cases l with
    | nil => simp
    | cons p l => simp [containsLoop] at h
  | succ n ih =>
    intro l hl h
    cases l with
    | nil => simp
    | cons p l =>
      obtain ⟨a, b⟩ := p
      obtain ⟨h1, h2, h3⟩ := hl (a, b) (by simp)
      dsimp only at h1 h2 h3
      rw [containsLoop] at h
      split at h
      · simp at h
      · split at h
        · rename_i hle
          have := ih l (fun q hq => hl q (by simp [hq])) h
          intro q hq t h4 h5
          rcases List.mem_cons.mp hq with rfl | hq
          · exact Itv.mem_of_le hle (hev a b h1 h2 h3 t h4 h5)
          · exact this q hq t h4 h5
        · split at h
          · simp at h
          · obtain ⟨m1, m2⟩ := hm a b h2
            have := ih _ (fun q hq => by
              rcases List.mem_cons.mp hq with rfl | hq
              · exact ⟨h1.trans m1, m2, h3⟩
              · rcases List.mem_cons.mp hq with rfl | hq
                · exact ⟨h1, m1, m2.trans h3⟩
                · exact hl q (by simp [hq])) h
            intro q hq t h4 h5
            rcases List.mem_cons.mp hq with rfl | hq
            · rcases le_total t (mid a b) with h6 | h6
              · exact this (a, mid a b) (by simp) t h4 h6
              · exact this (mid a b, b) (by simp) t h6 h5
            · exact this q (by simp [hq]) t h4 h5

theorem containsLoop_no {f : K → K} {cod : Itv K} (hm : ∀ a b, a ≤ b → a ≤ mid a b ∧ mid a b ≤ b) {t0 tf : K} (hev : EnclosesOn ev f t0 tf) :
    ∀ (n : Nat) (l : List (K × K)), (∀ p ∈ l, t0 ≤ p.1 ∧ p.1 ≤ p.2 ∧ p.2 ≤ tf) → containsLoop ev mid eps cod n l = some .no →
      ∃ t, t0 ≤ t ∧ t ≤ tf ∧ f t ∉ cod := by
  intro n
  induction n with
  | zero =>
    intro l _ h
    cases l with
    | nil => simp [containsLoop] at h
    | cons p l => simp [containsLoop] at h
  | succ n ih =>
    intro l hl h
    cases l with
    | nil => simp [containsLoop] at h
    | cons p l =>
      obtain ⟨a, b⟩ := p
      obtain ⟨h1, h2, h3⟩ := hl (a, b) (by simp)
      dsimp only at h1 h2 h3
      rw [containsLoop] at h
      split at h
      · rename_i hb
        exact ⟨a, h1, h2.trans h3, not_mem_of_inf_bot hb (hev a b h1 h2 h3 a le_rfl h2)⟩
      · split at h
        · exact ih l (fun q hq => hl q (by simp [hq])) h
        · split at h
          · simp at h
          · obtain ⟨m1, m2⟩ := hm a b h2
            exact ih _ (fun q hq => by
              rcases List.mem_cons.mp hq with rfl | hq
              · exact ⟨h1.trans m1, m2, h3⟩
              · rcases List.mem_cons.mp hq with rfl | hq
                · exact ⟨h1, m1, m2.trans h3⟩
                · exact hl q (by simp [hq])) h

theorem sliceContains_yes {f : K → K} (hm : ∀ a b, a ≤ b → a ≤ mid a b ∧ mid a b ≤ b) {s : Slice K} (hlu : s.lb < s.ub)
    (hev : EnclosesOn ev f s.lb s.ub) {n : Nat} (h : s.contains ev mid eps n = some .yes) : s.Encloses f := by
  have hi : f s.lb ∈ ev (Itv.point s.lb) := by rw [point_eq_icc]; exact hev _ _ le_rfl le_rfl hlu.le _ le_rfl le_rfl
  have ho : f s.ub ∈ ev (Itv.point s.ub) := by rw [point_eq_icc]; exact hev _ _ hlu.le le_rfl le_rfl _ le_rfl le_rfl
  unfold Slice.contains at h
  split at h
  · simp at h
  · split at h
    · simp at h
    · rename_i hg
      push Not at hg
      refine ⟨Itv.mem_of_le hg.1 hi, Itv.mem_of_le hg.2 ho, fun t h1 h2 => ?_⟩
      split at h
      · rename_i hle
        exact Itv.mem_of_le hle (hev _ _ le_rfl hlu.le le_rfl t h1.le h2.le)
      · exact containsLoop_yes hm hev n _ (by simp [hlu.le]) h (s.lb, s.ub) (by simp) t h1.le h2.le

theorem sliceContains_no {f : K → K} (hm : ∀ a b, a ≤ b → a ≤ mid a b ∧ mid a b ≤ b) {s : Slice K} (hlu : s.lb < s.ub)
    (hev : EnclosesOn ev f s.lb s.ub) {n : Nat} (h : s.contains ev mid eps n = some .no) :
    f s.lb ∉ s.inG ∨ f s.ub ∉ s.outG ∨ ∃ t, s.lb ≤ t ∧ t ≤ s.ub ∧ f t ∉ s.cod := by
  have hi : f s.lb ∈ ev (Itv.point s.lb) := by rw [point_eq_icc]; exact hev _ _ le_rfl le_rfl hlu.le _ le_rfl le_rfl
  have ho : f s.ub ∈ ev (Itv.point s.ub) := by rw [point_eq_icc]; exact hev _ _ hlu.le le_rfl le_rfl _ le_rfl le_rfl
  unfold Slice.contains at h
  split at h
  · rename_i hc
    rcases hc with hc | hc | hc
    · exact .inr (.inr ⟨s.lb, le_rfl, hlu.le, not_mem_of_inf_bot hc (hev _ _ le_rfl hlu.le le_rfl _ le_rfl hlu.le)⟩)
    · exact .inl (not_mem_of_inf_bot hc hi)
    · exact .inr (.inl (not_mem_of_inf_bot hc ho))
  · split at h
    · simp at h
    · split at h
      · simp at h
      · exact .inr (.inr (containsLoop_no hm hev n _ (by simp [hlu.le]) h))

theorem containsSlices_yes {n : Nat} : ∀ (l : List (Slice K)) (r : Answer), containsSlices ev mid eps n r l = some .yes →
    r = .yes ∧ ∀ s ∈ l, s.contains ev mid eps n = some .yes := by
  intro l
  induction l with
  | nil => intro r h; simp only [containsSlices, Option.some.injEq] at h; exact ⟨h, by simp⟩
  | cons s l ih =>
    intro r h
    rw [containsSlices] at h
    split at h
    · simp at h
    · simp at h
    · exact absurd (ih _ h).1 (by simp)
    · rename_i hs
      obtain ⟨h1, h2⟩ := ih _ h
      exact ⟨h1, fun s' hs' => by
        rcases List.mem_cons.mp hs' with rfl | hs'
        · exact hs
        · exact h2 s' hs'⟩

theorem containsSlices_no {n : Nat} : ∀ (l : List (Slice K)) (r : Answer), r ≠ .no → containsSlices ev mid eps n r l = some .no →
    ∃ s ∈ l, s.contains ev mid eps n = some .no := by
  intro l
  induction l with
  | nil => intro r hr h; simp only [containsSlices, Option.some.injEq] at h; exact absurd h hr
  | cons s l ih =>
    intro r hr h
    rw [containsSlices] at h
    split at h
    · simp at h
    · rename_i hs; exact ⟨s, by simp, hs⟩
    · obtain ⟨s', h1, h2⟩ := ih _ (by simp) h; exact ⟨s', by simp [h1], h2⟩
    · obtain ⟨s', h1, h2⟩ := ih _ hr h; exact ⟨s', by simp [h1], h2⟩

theorem EnclosesOn.mono {f : K → K} {a b a' b' : K} (h : EnclosesOn ev f a b) (h1 : a ≤ a') (h2 : b' ≤ b) : EnclosesOn ev f a' b' :=
  fun u v h3 h4 h5 t h6 h7 => h u v (h1.trans h3) h4 (h5.trans h2) t h6 h7

theorem contains_yes {f : K → K} (hm : ∀ a b, a ≤ b → a ≤ mid a b ∧ mid a b ≤ b) {T : Tube K} (hT : T.WF) (hev : EnclosesOn ev f T.t0 T.tf) {n : Nat}
    (h : T.contains ev mid eps n = some .yes) : T.Encloses f := by
  intro s hs
  obtain ⟨h1, h2, h3⟩ := hT.tiles.mem_bounds hs
  exact sliceContains_yes hm h2 (hev.mono h1 h3) ((containsSlices_yes _ _ h).2 s hs)

/-- every value at an instant is in the envelope of the slices around -/
theorem evalAt_le_sliceCod {T : Tube K} (hT : T.WF) (hg : T.GatesInEnvelopes) {s : Slice K} (hs : s ∈ T.slices) {t : K} (h1 : s.lb ≤ t) (h2 : t ≤ s.ub) :
    T.evalAt t ≤ s.cod := by
  rcases eq_or_lt_of_le h1 with rfl | h1
  · rw [Tube.evalAt_lb hT hs]; exact (hg s hs).1
  · rcases eq_or_lt_of_le h2 with rfl | h2
    · rw [Tube.evalAt_ub hT hs]; exact (hg s hs).2
    · rw [Tube.evalAt_interior hT hs h1 h2]

theorem contains_no {f : K → K} (hm : ∀ a b, a ≤ b → a ≤ mid a b ∧ mid a b ≤ b) {T : Tube K} (hT : T.WF) (hg : T.GatesInEnvelopes)
    (hev : EnclosesOn ev f T.t0 T.tf) {n : Nat} (h : T.contains ev mid eps n = some .no) : ∃ t, T.t0 ≤ t ∧ t ≤ T.tf ∧ f t ∉ T.evalAt t := by
  obtain ⟨s, hs, hc⟩ := containsSlices_no _ _ (by simp) h
  obtain ⟨h1, h2, h3⟩ := hT.tiles.mem_bounds hs
  rcases sliceContains_no hm h2 (hev.mono h1 h3) hc with h4 | h4 | ⟨t, h4, h5, h6⟩
  · exact ⟨s.lb, h1, h2.le.trans h3, by rw [Tube.evalAt_lb hT hs]; exact h4⟩
  · exact ⟨s.ub, h1.trans h2.le, h3, by rw [Tube.evalAt_ub hT hs]; exact h4⟩
  · exact ⟨t, h1.trans h4, h5.trans h3, fun hc => h6 (Itv.mem_of_le (evalAt_le_sliceCod hT hg hs h4 h5) hc)⟩

theorem containsLoop_mono {cod : Itv K} {n m : Nat} (hnm : n ≤ m) {l : List (K × K)} {r : Answer} (h : containsLoop ev mid eps cod n l = some r) :
    containsLoop ev mid eps cod m l = some r := by
  induction n generalizing l m with
  | zero =>
    cases l with
    | nil => cases m <;> simpa [containsLoop] using h
    | cons p l => simp [containsLoop] at h
  | succ n ih =>
    cases l with
    | nil => cases m <;> simpa [containsLoop] using h
    | cons p l =>
      obtain ⟨a, b⟩ := p
      cases m with
      | zero => omega
      | succ m =>
        rw [containsLoop] at h ⊢
        split
        · rename_i hc; rw [if_pos hc] at h; exact h
        · rename_i hc; rw [if_neg hc] at h
          split
          · rename_i hc'; rw [if_pos hc'] at h; exact ih (by omega) h
          · rename_i hc'; rw [if_neg hc'] at h
            split
            · rename_i hd; rw [if_pos hd] at h; exact h
            · rename_i hd; rw [if_neg hd] at h; exact ih (by omega) h

theorem sliceContains_mono {s : Slice K} {n m : Nat} (hnm : n ≤ m) {r : Answer} (h : s.contains ev mid eps n = some r) : s.contains ev mid eps m = some r := by
  unfold Slice.contains at h ⊢
  split
  · rename_i hc; rw [if_pos hc] at h; exact h
  · rename_i hc; rw [if_neg hc] at h
    split
    · rename_i hd; rw [if_pos hd] at h; exact h
    · rename_i hd; rw [if_neg hd] at h
      split
      · rename_i he; rw [if_pos he] at h; exact h
      · rename_i he; rw [if_neg he] at h; exact containsLoop_mono hnm h

/-- a stuck bisection: the loop never ends -/
theorem containsLoop_stuck {cod : Itv K} {a b : K} (h1 : ¬ ev (Itv.icc a b) ⊓ cod = ⊥) (h2 : ¬ ev (Itv.icc a b) ≤ cod) (h3 : ¬ b - a < eps)
    (hm : mid a b = a ∨ (mid a b = b ∧ ev (Itv.icc b b) ≤ cod ∧ ¬ ev (Itv.icc b b) ⊓ cod = ⊥)) :
    ∀ (n : Nat) (l : List (K × K)), containsLoop ev mid eps cod n ((a, b) :: l) = none := by
  intro n
  induction n using Nat.strong_induction_on with
  | _ n ih =>
    intro l
    cases n with
    | zero => rfl
    | succ n =>
      rw [containsLoop]
      rw [if_neg h1, if_neg h2, if_neg h3]
      rcases hm with hm | ⟨hm, h4, h5⟩
      · rw [hm]; exact ih n (by omega) _
      · rw [hm]
        cases n with
        | zero => rfl
        | succ n =>
          rw [containsLoop]
          rw [if_neg h5, if_pos h4]
          exact ih n (by omega) _

end ContainsSound

section ContainsTerm
variable {K : Type*} [Field K] [LinearOrder K] [IsStrictOrderedRing K] [Archimedean K]

/-- with an exact bisection the loop ends -/
theorem containsLoop_ends (ev : Itv K → Itv K) {eps : K} (cod : Itv K) :
    ∀ (k : Nat) (l : List (K × K)) (a b : K), b - a < 2 ^ k * eps → (∃ n r, containsLoop ev (fun a b => a + (b - a) / 2) eps cod n l = some r) →
      ∃ n r, containsLoop ev (fun a b => a + (b - a) / 2) eps cod n ((a, b) :: l) = some r := by
  intro k
  induction k with
  | zero =>
    intro l a b hk ⟨n, r, h⟩
    by_cases h1 : ev (Itv.icc a b) ⊓ cod = ⊥
    · exact ⟨1, .no, by rw [containsLoop]; rw [if_pos h1]⟩
    · by_cases h2 : ev (Itv.icc a b) ≤ cod
      · exact ⟨n + 1, r, by rw [containsLoop]; rw [if_neg h1, if_pos h2]; exact h⟩
      · refine ⟨1, .maybe, ?_⟩
        rw [containsLoop]; rw [if_neg h1, if_neg h2, if_pos (by simpa using hk)]
  | succ k ih =>
    intro l a b hk hl
    by_cases h1 : ev (Itv.icc a b) ⊓ cod = ⊥
    · exact ⟨1, .no, by rw [containsLoop]; rw [if_pos h1]⟩
    · by_cases h2 : ev (Itv.icc a b) ≤ cod
      · obtain ⟨n, r, h⟩ := hl
        exact ⟨n + 1, r, by rw [containsLoop]; rw [if_neg h1, if_pos h2]; exact h⟩
      · by_cases h3 : b - a < eps
        · exact ⟨1, .maybe, by rw [containsLoop]; rw [if_neg h1, if_neg h2, if_pos h3]⟩
        · have hk' : b - a < 2 * (2 ^ k * eps) := by rw [pow_succ] at hk; linarith
          have e1 := ih l a (a + (b - a) / 2) (by linarith) hl
          obtain ⟨n, r, h⟩ := ih ((a, a + (b - a) / 2) :: l) (a + (b - a) / 2) b (by linarith) e1
          exact ⟨n + 1, r, by rw [containsLoop]; rw [if_neg h1, if_neg h2, if_neg h3]; exact h⟩

theorem sliceContains_ends (ev : Itv K → Itv K) {eps : K} (heps : 0 < eps) (s : Slice K) : ∃ n r, s.contains ev (fun a b => a + (b - a) / 2) eps n = some r := by
  obtain ⟨k, hk⟩ := pow_unbounded_of_one_lt ((s.ub - s.lb) / eps) (one_lt_two : (1 : K) < 2)
  rw [div_lt_iff₀ heps] at hk
  obtain ⟨n, r, h⟩ := containsLoop_ends ev s.cod k [] s.lb s.ub hk ⟨0, .yes, rfl⟩
  unfold Slice.contains
  split
  · exact ⟨0, _, rfl⟩
  · split
    · exact ⟨0, _, rfl⟩
    · split
      · exact ⟨0, _, rfl⟩
      · exact ⟨n, r, h⟩

theorem containsSlices_ends (ev : Itv K → Itv K) {eps : K} (heps : 0 < eps) : ∀ (l : List (Slice K)) (r : Answer),
    ∃ n r', ∀ m ≥ n, containsSlices ev (fun a b => a + (b - a) / 2) eps m r l = some r' := by
  intro l
  induction l with
  | nil => intro r; exact ⟨0, r, fun _ _ => rfl⟩
  | cons s l ih =>
    intro r
    obtain ⟨n, a, ha⟩ := sliceContains_ends ev heps s
    have key : ∀ r' : Answer, ∃ k r'', ∀ m ≥ k, n ≤ m ∧ containsSlices ev (fun a b => a + (b - a) / 2) eps m r' l = some r'' := fun r' => by
      obtain ⟨k, r'', hk⟩ := ih r'
      exact ⟨max n k, r'', fun m hm => ⟨le_trans (le_max_left _ _) hm, hk m (le_trans (le_max_right _ _) hm)⟩⟩
    cases a with
    | no => exact ⟨n, .no, fun m hm => by rw [containsSlices, sliceContains_mono hm ha]⟩
    | maybe =>
      obtain ⟨k, r'', hk⟩ := key .maybe
      exact ⟨k, r'', fun m hm => by rw [containsSlices, sliceContains_mono (hk m hm).1 ha]; exact (hk m hm).2⟩
    | yes =>
      obtain ⟨k, r'', hk⟩ := key r
      exact ⟨k, r'', fun m hm => by rw [containsSlices, sliceContains_mono (hk m hm).1 ha]; exact (hk m hm).2⟩

end ContainsTerm

/-! ### Trajectories defined by a map -/

section MapTraj
variable {K : Type*} [Field K] [LinearOrder K] [IsStrictOrderedRing K]

/-- `Trajectory::operator()(Interval)` as used by tubes; outside its domain of definition: the empty set -/
def Traj.ev (x : Traj K) (I : Itv K) : Itv K := (x.evalItv I).getD ⊥

/-- `Trajectory::operator()(double)` -/
def Traj.fn (x : Traj K) (t : K) : K := (x.evalAt t).getD 0

theorem Traj.fn_mem_ev {x : Traj K} (h : TrajOk x) {t0 tf : K} (hd : Itv.icc t0 tf ≤ x.dom) : EnclosesOn x.ev x.fn t0 tf := by
  intro u v h1 h2 h3 t h4 h5
  have hd' : Itv.icc u v ≤ x.dom := by
    rw [icc_le_iff h2]
    have hh := fun (w : K) (hw : t0 ≤ w ∧ w ≤ tf) => Itv.mem_of_le hd (Itv.mem_icc.mpr hw)
    exact ⟨hh u ⟨h1, h2.trans h3⟩, hh v ⟨h1.trans h2, h3⟩⟩
  obtain ⟨X, m, M, hX, _, hr, _⟩ := evalItv_range h h2 hd'
  obtain ⟨w, hw⟩ := evalAt_some h (Itv.mem_of_le hd' (Itv.mem_icc.mpr ⟨h4, h5⟩))
  unfold Traj.ev Traj.fn
  rw [hX, hw]
  exact hr t w h4 h5 hw

end MapTraj

end Codac
