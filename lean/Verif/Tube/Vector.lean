import Verif.Tube.Ops
import Verif.Tube.SetAt
import Verif.Box

/-!
# Vectors of tubes: inversion

Source: `src/core/domains/tube/codac_TubeVector.cpp:420-579`. A `TubeVector` is a list of tubes. The slices of the components are
followed in parallel with those of the first one.
-/

set_option linter.unusedSectionVars false

namespace Codac

variable {K : Type*} [LinearOrder K]

/-- the slices of index `k` of the components (`v_s`, codac_TubeVector.cpp:437-441) -/
def vSlices (x : List (Tube K)) (k : Nat) : List (Slice K) := x.filterMap fun T => T.slices[k]?

/-- the successive values of `v_s`, with the time domain of `v_s[0]` -/
def vRows (x : List (Tube K)) : List ((K × K) × List (Slice K)) :=
  match x with
  | [] => []
  | T :: _ => T.slices.mapIdx fun k s => ((s.lb, s.ub), vSlices x k)

/-- all the components have the slicing of the first one -/
def vSameSlicing (x : List (Tube K)) : Bool :=
  match x with
  | [] => false
  | T :: l => l.all fun y => T.sameSlicing y

/-- time domain of a vector of tubes (the one of the first component), codac_TubeVector.cpp:233-237 -/
def vDom (x : List (Tube K)) : Option (K × K) := x.head?.map fun T => (T.t0, T.tf)

/-- index of `slice(t)` in the first component -/
def vIndex (x : List (Tube K)) (t : K) : Nat := (x.head?.map fun T => timeToIndex t T.slices).getD 0

/-- `inversion &= v_s[i]->invert(y[i], search_tdomain & v_s[i]->tdomain())` while not empty, from `init`,
codac_TubeVector.cpp:451-453, 536-538, for a search interval `[a,b]` -/
def rowInvert (y : Box K) (a b : K) (init : Itv K) (r : List (Slice K)) : Itv K :=
  (r.zip y).foldl (fun acc p => if acc.isEmpty then acc else acc ⊓ p.1.invert p.2 (Itv.icc a b ⊓ Itv.icc p.1.lb p.1.ub)) init

/-- the loops of `macro_invert_union`, codac_TubeVector.cpp:446-460 (forward) and 468-482 (backward): the inversion for the first row which has a non-empty one,
as long as `go` holds -/
def firstInvert (y : Box K) (a b : K) (go : K × K → Bool) : List ((K × K) × List (Slice K)) → Itv K
  | [] => ⊥
  | r :: rs =>
    if go r.1 then
      let I := rowInvert y a b (Itv.icc r.1.1 r.1.2) r.2
      if I.isEmpty then firstInvert y a b go rs else I
    else ⊥

/-- `TubeVector::invert(y, search_tdomain)`, codac_TubeVector.cpp:420-493. `none` when the slicings of the components differ (in the code,
slices of different time domains are mixed or a null pointer is followed). -/
def vInvert (x : List (Tube K)) (y : Box K) (search : Itv K) : Option (Itv K) :=
  if vSameSlicing x then
    some (match search, vDom x with
    | .empty, _ => ⊥
    | .mk (some a) (some b) _, some (t0, tf) =>
      if a < t0 ∨ b > tf then ⊤
      else
        firstInvert y a b (fun d => decide (d.1 < b)) ((vRows x).drop (vIndex x a)) ⊔
          firstInvert y a b (fun d => decide (d.2 > a)) ((vRows x).take (vIndex x b + 1)).reverse
    | _, _ => ⊤)
  else none

/-- the loop of `macro_invert_subsets`, codac_TubeVector.cpp:534-552; `acc` is `ti` -/
def vInvertListLoop (y : Box K) (a b : K) (acc : Itv K) : List ((K × K) × List (Slice K)) → List (Itv K)
  | [] => if acc.isEmpty then [] else [acc]
  | r :: rs =>
    if r.1.1 ≤ b then
      let inv := rowInvert y a b ⊤ r.2
      let ti := acc ⊔ inv
      if inv.isEmpty && !ti.isEmpty then ti :: vInvertListLoop y a b ⊥ rs
      else vInvertListLoop y a b ti rs
    else if acc.isEmpty then [] else [acc]

/-- `TubeVector::invert(y, v_t, search_tdomain)`, codac_TubeVector.cpp:509-569; `none` as for `vInvert` -/
def vInvertList (x : List (Tube K)) (y : Box K) (search : Itv K) : Option (List (Itv K)) :=
  if vSameSlicing x then
    some (match search, vDom x with
    | .empty, _ => []
    | .mk (some a) (some b) _, some (t0, tf) =>
      if a < t0 ∨ b > tf then [⊤] else vInvertListLoop y a b ⊥ ((vRows x).drop (vIndex x a))
    | _, _ => [⊤])
  else none

/-! ### Positions in a tiling -/

theorem Tiles.idx_lt {a b : K} {g : Itv K} {cs : List (Cell K)} (h : Tiles a cs b) {i j : Nat} {s s' : Slice K}
    (hi : (slicesFrom g cs)[i]? = some s) (hj : (slicesFrom g cs)[j]? = some s') (hij : i < j) : s.ub ≤ s'.lb := by
  induction cs generalizing a g i j with
  | nil => simp at hi
  | cons c cs ih =>
    obtain ⟨rfl, h3, h4⟩ := h
    cases j with
    | zero => omega
    | succ j =>
      rw [slicesFrom_cons, List.getElem?_cons_succ] at hj
      cases i with
      | zero =>
        simp only [slicesFrom_cons, List.getElem?_cons_zero, Option.some.injEq] at hi
        subst hi
        exact (h4.mem_bounds (List.mem_of_getElem? hj)).1
      | succ i =>
        rw [slicesFrom_cons, List.getElem?_cons_succ] at hi
        exact ih h4 hi hj (by omega)

theorem Tiles.timeToIndex_spec {a b t : K} {g : Itv K} {cs : List (Cell K)} (h : Tiles a cs b) (hne : cs ≠ []) (hat : a ≤ t) :
    ∃ s, (slicesFrom g cs)[timeToIndex t (slicesFrom g cs)]? = some s ∧ s.lb ≤ t ∧
      (t < s.ub ∨ s.ub = b ∧ timeToIndex t (slicesFrom g cs) + 1 = cs.length) := by
  induction cs generalizing a g with
  | nil => exact absurd rfl hne
  | cons c cs ih =>
    obtain ⟨rfl, h3, h4⟩ := h
    cases cs with
    | nil =>
      refine ⟨_, rfl, hat, .inr ⟨h4, rfl⟩⟩
    | cons c' cs =>
      by_cases hlt : t < c.ub
      · have : timeToIndex t (slicesFrom g (c :: c' :: cs)) = 0 := by simp [timeToIndex, hlt]
        rw [this]
        exact ⟨_, rfl, hat, .inl hlt⟩
      · have : timeToIndex t (slicesFrom g (c :: c' :: cs)) = timeToIndex t (slicesFrom c.out (c' :: cs)) + 1 := by
          simp [timeToIndex, hlt]
        rw [this]
        obtain ⟨s, h5, h6, h7⟩ := ih (g := c.out) h4 (by simp) (not_lt.mp hlt)
        refine ⟨s, by rw [slicesFrom_cons, List.getElem?_cons_succ]; exact h5, h6, ?_⟩
        rcases h7 with h7 | ⟨h7, h8⟩
        · exact .inl h7
        · exact .inr ⟨h7, by rw [h8]; simp⟩

/-! ### Rows -/

/-- the components of a vector of tubes are well formed and have the same slicing -/
structure VecOk (T : Tube K) (x : List (Tube K)) : Prop where
  head : x.head? = some T
  wf : ∀ X ∈ x, X.WF
  same : ∀ X ∈ x, X.slices.map (fun s => (s.lb, s.ub)) = T.slices.map (fun s => (s.lb, s.ub))

theorem vecOk_of {x : List (Tube K)} (hs : vSameSlicing x = true) (hwf : ∀ X ∈ x, X.WF) : ∃ T, VecOk T x := by
  cases x with
  | nil => simp [vSameSlicing] at hs
  | cons T l =>
    refine ⟨T, rfl, hwf, ?_⟩
    intro X hX
    rcases List.mem_cons.mp hX with rfl | hX
    · rfl
    · simp only [vSameSlicing, List.all_eq_true] at hs
      have := hs X hX
      rw [Tube.sameSlicing, decide_eq_true_eq] at this
      exact this.symm

namespace VecOk
variable {T : Tube K} {x : List (Tube K)} (h : VecOk T x)
include h

theorem mem : T ∈ x := List.mem_of_mem_head? h.head

theorem getElem {k : Nat} {s : Slice K} (hk : T.slices[k]? = some s) {X : Tube K} (hX : X ∈ x) :
    ∃ s', X.slices[k]? = some s' ∧ s'.lb = s.lb ∧ s'.ub = s.ub := by
  have h1 := congrArg (·[k]?) (h.same X hX)
  simp only [List.getElem?_map, hk, Option.map_some] at h1
  cases hs : X.slices[k]? with
  | none => simp [hs] at h1
  | some s' =>
    simp only [hs, Option.map_some, Option.some.injEq, Prod.mk.injEq] at h1
    exact ⟨s', rfl, h1.1, h1.2⟩

theorem row {k : Nat} {s : Slice K} (hk : T.slices[k]? = some s) :
    List.Forall₂ (fun X s' => X.slices[k]? = some s' ∧ s'.lb = s.lb ∧ s'.ub = s.ub) x (vSlices x k) := by
  have : ∀ l : List (Tube K), (∀ X ∈ l, X ∈ x) →
      List.Forall₂ (fun X s' => X.slices[k]? = some s' ∧ s'.lb = s.lb ∧ s'.ub = s.ub) l (vSlices l k) := by
    intro l
    induction l with
    | nil => intro _; exact .nil
    | cons X l ih =>
      intro hl
      obtain ⟨s', h1, h2⟩ := h.getElem hk (hl X (by simp))
      have : vSlices (X :: l) k = s' :: vSlices l k := by simp [vSlices, h1]
      rw [this]
      exact .cons ⟨h1, h2⟩ (ih fun Y hY => hl Y (by simp [hY]))
  exact this x fun _ h => h

theorem rows_get (k : Nat) : (vRows x)[k]? = T.slices[k]?.map fun s => ((s.lb, s.ub), vSlices x k) := by
  have hh := h.head
  cases x with
  | nil => simp at hh
  | cons T' l =>
    simp only [List.head?_cons, Option.some.injEq] at hh
    subst hh
    simp [vRows, List.getElem?_mapIdx]

theorem index (t : K) : vIndex x t = timeToIndex t T.slices := by simp [vIndex, h.head]

theorem dom : vDom x = some (T.t0, T.tf) := by simp [vDom, h.head]

theorem rows_length : (vRows x).length = T.slices.length := by
  have hh := h.head
  cases x with
  | nil => simp at hh
  | cons T' l =>
    simp only [List.head?_cons, Option.some.injEq] at hh
    subst hh
    simp [vRows]

end VecOk

/-- a vector of trajectories in a vector of tubes -/
def VEncloses (x : List (Tube K)) (fs : List (K → K)) : Prop := List.Forall₂ Tube.Encloses x fs

theorem mem_rowInvert_iff {y : Box K} {a b t : K} {init : Itv K} {r : List (Slice K)} :
    t ∈ rowInvert y a b init r ↔ t ∈ init ∧ ∀ p ∈ r.zip y, t ∈ p.1.invert p.2 (Itv.icc a b ⊓ Itv.icc p.1.lb p.1.ub) := by
  unfold rowInvert
  generalize r.zip y = l
  induction l generalizing init with
  | nil => simp
  | cons p l ih =>
    rw [List.foldl_cons, ih]
    by_cases he : init.isEmpty = true
    · rw [if_pos he]
      rw [Itv.isEmpty_iff] at he
      subst he
      constructor
      · rintro ⟨h1, _⟩; cases h1
      · rintro ⟨h1, _⟩; cases h1
    · rw [if_neg he, Itv.mem_inf]
      simp only [List.mem_cons, forall_eq_or_imp, and_assoc]

/-- the instants at which the trajectories are in `y` are in the inversion of the row -/
theorem mem_rowInvert {T : Tube K} {x : List (Tube K)} (h : VecOk T x) (hgc : ∀ X ∈ x, X.GatesInEnvelopes) {fs : List (K → K)}
    (hf : VEncloses x fs) {y : Box K} {a b t : K} {k : Nat} {s : Slice K} (hk : T.slices[k]? = some s) (h1 : s.lb ≤ t) (h2 : t ≤ s.ub)
    (ha : a ≤ t) (hb : t ≤ b) (hy : InBox (fs.map (· t)) y) {init : Itv K} (hi : t ∈ init) :
    t ∈ rowInvert y a b init (vSlices x k) := by
  rw [mem_rowInvert_iff]
  refine ⟨hi, ?_⟩
  have hr := h.row hk
  have : ∀ (x : List (Tube K)) (r : List (Slice K)) (fs : List (K → K)) (y : Box K), (∀ X ∈ x, X.GatesInEnvelopes) →
      List.Forall₂ (fun X s' => X.slices[k]? = some s' ∧ s'.lb = s.lb ∧ s'.ub = s.ub) x r → VEncloses x fs →
      InBox (fs.map (· t)) y → ∀ p ∈ r.zip y, t ∈ p.1.invert p.2 (Itv.icc a b ⊓ Itv.icc p.1.lb p.1.ub) := by
    intro x r fs y hgc hr hf hy p hp
    induction hr generalizing fs y with
    | nil => simp at hp
    | cons h3 hr ih =>
      cases hf with
      | cons h4 hf =>
        cases y with
        | nil => simp at hp
        | cons Y y =>
          simp only [InBox, List.map_cons, List.forall₂_cons] at hy
          rw [List.zip_cons_cons, List.mem_cons] at hp
          rcases hp with rfl | hp
          · have hm := List.mem_of_getElem? h3.1
            refine Slice.invert_sound (h4 _ hm) (hgc _ (by simp) _ hm) ?_ hy.1
            simp only [Itv.mem_inf, Itv.mem_icc, h3.2.1, h3.2.2]
            exact ⟨⟨ha, hb⟩, h1, h2⟩
          · exact ih _ _ (fun X hX => hgc X (by simp [hX])) hf hy.2 hp
  exact this x _ fs y hgc hr hf hy

/-! ### The list version -/

theorem mem_vInvertListLoop_acc {y : Box K} {a b t : K} {acc : Itv K} (h : t ∈ acc) (rs : List ((K × K) × List (Slice K))) :
    ∃ I ∈ vInvertListLoop y a b acc rs, t ∈ I := by
  have hne : ∀ {X : Itv K}, t ∈ X → X.isEmpty = false := fun h => Itv.isEmpty_false_iff.mpr (Itv.ne_bot_of_mem h)
  induction rs generalizing acc with
  | nil => exact ⟨acc, by simp [vInvertListLoop, hne h], h⟩
  | cons r rs ih =>
    simp only [vInvertListLoop]
    have h' := Itv.mem_sup_left (Y := rowInvert y a b ⊤ r.2) h
    split_ifs with h1 h2
    · exact ⟨_, List.mem_cons_self, h'⟩
    · exact ih h'
    · rename_i h2; rw [hne h] at h2; exact absurd h2 (by simp)
    · exact ⟨acc, by simp, h⟩

theorem mem_vInvertListLoop {y : Box K} {a b t : K} {rs : List ((K × K) × List (Slice K))} {acc : Itv K} (k : Nat)
    {r : (K × K) × List (Slice K)} (hk : rs[k]? = some r) (hle : ∀ (i : Nat) q, i ≤ k → rs[i]? = some q → q.1.1 ≤ b)
    (ht : t ∈ rowInvert y a b ⊤ r.2) : ∃ I ∈ vInvertListLoop y a b acc rs, t ∈ I := by
  induction rs generalizing k acc with
  | nil => simp at hk
  | cons q rs ih =>
    simp only [vInvertListLoop]
    rw [if_pos (hle 0 q (Nat.zero_le _) rfl)]
    cases k with
    | zero =>
      simp only [List.getElem?_cons_zero, Option.some.injEq] at hk
      subst hk
      have hne : (rowInvert y a b ⊤ q.2).isEmpty = false := Itv.isEmpty_false_iff.mpr (Itv.ne_bot_of_mem ht)
      rw [hne]
      simp only [Bool.false_and, Bool.false_eq_true, if_false]
      exact mem_vInvertListLoop_acc (Itv.mem_sup_right ht) rs
    | succ k =>
      rw [List.getElem?_cons_succ] at hk
      have ih' := fun acc => ih (acc := acc) k hk (fun i p hi hp => hle (i + 1) p (by omega) (by rw [List.getElem?_cons_succ]; exact hp))
      split_ifs
      · obtain ⟨I, hI, h⟩ := ih' ⊥
        exact ⟨I, List.mem_cons_of_mem _ hI, h⟩
      · exact ih' _

/-- the position of a slice containing `t`, at or after `slice(a)` -/
theorem exists_position {T : Tube K} (h : T.WF) {a t : K} (h0 : T.t0 ≤ a) (hat : a ≤ t) (hf : t ≤ T.tf) :
    ∃ k s, T.slices[k]? = some s ∧ timeToIndex a T.slices ≤ k ∧ k = timeToIndex t T.slices ∧ s.lb ≤ t ∧ t ≤ s.ub ∧
      (t < s.ub ∨ k + 1 = T.slices.length) := by
  obtain ⟨s, h1, h2, h3⟩ := h.tiles.timeToIndex_spec (g := T.g0) h.ne (le_trans h0 hat)
  obtain ⟨s', h1', h2', h3'⟩ := h.tiles.timeToIndex_spec (g := T.g0) h.ne h0
  have hl : T.slices.length = T.cells.length := length_slicesFrom _ _
  refine ⟨_, s, h1, ?_, rfl, h2, ?_, ?_⟩
  · by_contra hc
    have hc : timeToIndex t T.slices < timeToIndex a T.slices := not_le.mp hc
    have := h.tiles.idx_lt h1 h1' hc
    rcases h3 with h3 | ⟨_, h3⟩
    · exact absurd (lt_of_lt_of_le h3 this) (not_lt.mpr (le_trans h2' hat))
    · have := timeToIndex_lt (t := a) (slices_ne_nil h)
      rw [hl] at this
      have h3 : timeToIndex t T.slices + 1 = T.cells.length := h3
      omega
  · rcases h3 with h3 | ⟨h3, _⟩
    · exact h3.le
    · rw [h3]; exact hf
  · rcases h3 with h3 | ⟨_, h3⟩
    · exact .inl h3
    · exact .inr (by rw [hl]; exact h3)

theorem vInvertList_sound {T : Tube K} {x : List (Tube K)} (h : VecOk T x) (hgc : ∀ X ∈ x, X.GatesInEnvelopes) {fs : List (K → K)}
    (hf : VEncloses x fs) {y : Box K} {search : Itv K} {t : K} (ht : t ∈ search) (hy : InBox (fs.map (· t)) y) {L : List (Itv K)}
    (hL : vInvertList x y search = some L) : ∃ I ∈ L, t ∈ I := by
  unfold vInvertList at hL
  split at hL
  swap
  · cases hL
  rw [h.dom] at hL
  simp only [Option.some.injEq] at hL
  match search, ht, hL with
  | .mk (some a) (some b) hab, ht, hL =>
    have ht' : a ≤ t ∧ t ≤ b := ht
    simp only at hL
    split_ifs at hL with h0
    · subst hL; exact ⟨⊤, by simp, by simp⟩
    · push Not at h0
      subst hL
      have hT := h.wf T h.mem
      obtain ⟨k, s, h1, h2, h3, h4, h5, h6⟩ := exists_position hT h0.1 ht'.1 (le_trans ht'.2 h0.2)
      rw [h.index]
      refine mem_vInvertListLoop (k - timeToIndex a T.slices) (r := ((s.lb, s.ub), vSlices x k)) ?_ ?_ ?_
      · rw [List.getElem?_drop, h.rows_get, Nat.add_sub_cancel' h2, h1]; rfl
      · intro i q hi hq
        rw [List.getElem?_drop, h.rows_get] at hq
        cases hs : T.slices[timeToIndex a T.slices + i]? with
        | none => simp [hs] at hq
        | some s' =>
          simp only [hs, Option.map_some, Option.some.injEq] at hq
          subst hq
          rcases Nat.lt_or_ge (timeToIndex a T.slices + i) k with hlt | hge
          · have := hT.tiles.idx_lt hs h1 hlt
            have hb := hT.tiles.mem_bounds (List.mem_of_getElem? hs)
            exact le_trans hb.2.1.le (le_trans this (le_trans h4 ht'.2))
          · have : timeToIndex a T.slices + i = k := by omega
            rw [this, h1, Option.some.injEq] at hs
            subst hs
            exact le_trans h4 ht'.2
      · exact mem_rowInvert h hgc hf h1 h4 h5 ht'.1 ht'.2 hy (by simp)
  | .mk none none _, _, hL => subst hL; exact ⟨⊤, by simp, by simp⟩
  | .mk none (some _) _, _, hL => subst hL; exact ⟨⊤, by simp, by simp⟩
  | .mk (some _) none _, _, hL => subst hL; exact ⟨⊤, by simp, by simp⟩

/-! ### The interval version -/

theorem firstInvert_spec {y : Box K} {a b : K} {go : K × K → Bool} {rs : List ((K × K) × List (Slice K))} (k : Nat)
    {r : (K × K) × List (Slice K)} (hk : rs[k]? = some r) (hgo : ∀ (i : Nat) q, i ≤ k → rs[i]? = some q → go q.1 = true)
    (hne : (rowInvert y a b (Itv.icc r.1.1 r.1.2) r.2).isEmpty = false) :
    ∃ (j : Nat) (q : (K × K) × List (Slice K)), j ≤ k ∧ rs[j]? = some q ∧ firstInvert y a b go rs = rowInvert y a b (Itv.icc q.1.1 q.1.2) q.2 ∧
      firstInvert y a b go rs ≠ ⊥ := by
  induction rs generalizing k with
  | nil => simp at hk
  | cons p rs ih =>
    simp only [firstInvert]
    rw [if_pos (hgo 0 p (Nat.zero_le _) rfl)]
    by_cases he : (rowInvert y a b (Itv.icc p.1.1 p.1.2) p.2).isEmpty = true
    · rw [if_pos he]
      cases k with
      | zero =>
        simp only [List.getElem?_cons_zero, Option.some.injEq] at hk
        subst hk
        rw [hne] at he; cases he
      | succ k =>
        rw [List.getElem?_cons_succ] at hk
        obtain ⟨j, q, h1, h2, h3⟩ := ih k hk (fun i q hi hq => hgo (i + 1) q (by omega) (by rw [List.getElem?_cons_succ]; exact hq))
        exact ⟨j + 1, q, by omega, by rw [List.getElem?_cons_succ]; exact h2, h3⟩
    · rw [if_neg he]
      exact ⟨0, p, Nat.zero_le _, rfl, rfl, Itv.isEmpty_false_iff.mp (Bool.eq_false_iff.mpr he)⟩

theorem VecOk.back_get {T : Tube K} {x : List (Tube K)} (h : VecOk T x) {n i : Nat} (hn : n < T.slices.length) (hi : i ≤ n) :
    ((vRows x).take (n + 1)).reverse[i]? = T.slices[n - i]?.map fun s => ((s.lb, s.ub), vSlices x (n - i)) := by
  have hl : ((vRows x).take (n + 1)).length = n + 1 := by
    rw [List.length_take, h.rows_length]; omega
  rw [List.getElem?_reverse (by rw [hl]; omega), hl, List.getElem?_take, if_pos (by omega), h.rows_get]
  simp

theorem vInvert_sound [NoMinOrder K] [NoMaxOrder K] {T : Tube K} {x : List (Tube K)} (h : VecOk T x)
    (hgc : ∀ X ∈ x, X.GatesInEnvelopes) {fs : List (K → K)}
    (hf : VEncloses x fs) {y : Box K} {search : Itv K} {t : K} (ht : t ∈ search) (hy : InBox (fs.map (· t)) y) {I : Itv K}
    (hI : vInvert x y search = some I) : t ∈ I := by
  have : Nonempty K := ⟨t⟩
  unfold vInvert at hI
  split at hI
  swap
  · cases hI
  rw [h.dom] at hI
  simp only [Option.some.injEq] at hI
  match search, ht, hI with
  | .mk none none _, _, hL => subst hL; simp
  | .mk none (some _) _, _, hL => subst hL; simp
  | .mk (some _) none _, _, hL => subst hL; simp
  | .mk (some a) (some b) hab, ht, hI =>
    have ht' : a ≤ t ∧ t ≤ b := ht
    simp only at hI
    split_ifs at hI with h0
    · subst hI; simp
    push Not at h0
    subst hI
    have hT := h.wf T h.mem
    obtain ⟨k, s, h1, h2, h3, h4, h5, h6⟩ := exists_position hT h0.1 ht'.1 (le_trans ht'.2 h0.2)
    obtain ⟨kb, sb, b1, b2, b3, b4, b5, b6⟩ := exists_position hT (le_trans h0.1 ht'.1) ht'.2 h0.2
    have hs := hT.tiles.mem_bounds (List.mem_of_getElem? h1)
    have hkb : k ≤ kb := h3 ▸ b2
    have hlt : ∀ {i : Nat} {q : Slice K}, T.slices[i]? = some q → i < T.slices.length := fun hq => (List.getElem?_eq_some_iff.mp hq).1
    have hrow : t ∈ rowInvert y a b (Itv.icc s.lb s.ub) (vSlices x k) :=
      mem_rowInvert h hgc hf h1 h4 h5 ht'.1 ht'.2 hy (by simpa using ⟨h4, h5⟩)
    have hrne : (rowInvert y a b (Itv.icc s.lb s.ub) (vSlices x k)).isEmpty = false := by
      rw [Itv.isEmpty_false_iff]; exact Itv.ne_bot_of_mem hrow
    rw [h.index, h.index, ← b3]
    -- forward: an element before `t`
    have fwd : s.lb < b → ∃ p ∈ firstInvert y a b (fun d => decide (d.1 < b)) ((vRows x).drop (timeToIndex a T.slices)),
        p ≤ t ∧ (k = timeToIndex a T.slices → p = t) := by
      intro hsb
      obtain ⟨j, q, j1, j2, j3, j4⟩ := firstInvert_spec (y := y) (a := a) (b := b) (go := fun d => decide (d.1 < b))
        (rs := (vRows x).drop (timeToIndex a T.slices)) (k - timeToIndex a T.slices) (r := ((s.lb, s.ub), vSlices x k))
        (by rw [List.getElem?_drop, h.rows_get, Nat.add_sub_cancel' h2, h1]; rfl)
        (by
          intro i q hi hq
          rw [List.getElem?_drop, h.rows_get] at hq
          cases hs' : T.slices[timeToIndex a T.slices + i]? with
          | none => simp [hs'] at hq
          | some s' =>
            simp only [hs', Option.map_some, Option.some.injEq] at hq
            subst hq
            simp only [decide_eq_true_eq]
            rcases Nat.lt_or_ge (timeToIndex a T.slices + i) k with hlt | hge
            · have := hT.tiles.idx_lt hs' h1 hlt
              have hb := hT.tiles.mem_bounds (List.mem_of_getElem? hs')
              exact lt_of_lt_of_le hb.2.1 (le_trans this hsb.le)
            · have : timeToIndex a T.slices + i = k := by omega
              rw [this, h1, Option.some.injEq] at hs'
              subst hs'
              exact hsb) hrne
      rw [List.getElem?_drop, h.rows_get] at j2
      cases hs' : T.slices[timeToIndex a T.slices + j]? with
      | none => simp [hs'] at j2
      | some s' =>
        simp only [hs', Option.map_some, Option.some.injEq] at j2
        subst j2
        rcases Nat.lt_or_ge (timeToIndex a T.slices + j) k with hlt | hge
        · obtain ⟨p, hp⟩ := Itv.exists_mem j4
          refine ⟨p, hp, ?_⟩
          rw [j3, mem_rowInvert_iff] at hp
          have := hT.tiles.idx_lt hs' h1 hlt
          exact ⟨le_trans (Itv.mem_icc.mp hp.1).2 (le_trans this h4), by omega⟩
        · have e : timeToIndex a T.slices + j = k := by omega
          rw [e, h1, Option.some.injEq] at hs'
          subst hs'
          rw [e] at j3
          exact ⟨t, by rw [j3]; exact hrow, le_refl _, fun _ => rfl⟩
    -- backward: an element after `t`
    have bwd : s.ub > a → ∃ q ∈ firstInvert y a b (fun d => decide (d.2 > a)) ((vRows x).take (kb + 1)).reverse,
        t ≤ q ∧ (k = kb → q = t) := by
      intro hsa
      obtain ⟨j, q, j1, j2, j3, j4⟩ := firstInvert_spec (y := y) (a := a) (b := b) (go := fun d => decide (d.2 > a))
        (rs := ((vRows x).take (kb + 1)).reverse) (kb - k) (r := ((s.lb, s.ub), vSlices x k))
        (by rw [h.back_get (hlt b1) (by omega), Nat.sub_sub_self hkb, h1]; rfl)
        (by
          intro i q hi hq
          rw [h.back_get (hlt b1) (by omega)] at hq
          cases hs' : T.slices[kb - i]? with
          | none => simp [hs'] at hq
          | some s' =>
            simp only [hs', Option.map_some, Option.some.injEq] at hq
            subst hq
            simp only [decide_eq_true_eq]
            rcases Nat.lt_or_ge k (kb - i) with hlt | hge
            · have := hT.tiles.idx_lt h1 hs' hlt
              have hb := hT.tiles.mem_bounds (List.mem_of_getElem? hs')
              exact lt_trans (lt_of_lt_of_le hsa this) hb.2.1
            · have : kb - i = k := by omega
              rw [this, h1, Option.some.injEq] at hs'
              subst hs'
              exact hsa) hrne
      rw [h.back_get (hlt b1) (by omega)] at j2
      cases hs' : T.slices[kb - j]? with
      | none => simp [hs'] at j2
      | some s' =>
        simp only [hs', Option.map_some, Option.some.injEq] at j2
        subst j2
        rcases Nat.lt_or_ge k (kb - j) with hlt | hge
        · obtain ⟨p, hp⟩ := Itv.exists_mem j4
          refine ⟨p, hp, ?_⟩
          rw [j3, mem_rowInvert_iff] at hp
          have := hT.tiles.idx_lt h1 hs' hlt
          exact ⟨le_trans h5 (le_trans this (Itv.mem_icc.mp hp.1).1), by omega⟩
        · have e : kb - j = k := by omega
          rw [e, h1, Option.some.injEq] at hs'
          subst hs'
          rw [e] at j3
          exact ⟨t, by rw [j3]; exact hrow, le_refl _, fun _ => rfl⟩
    by_cases hsb : s.lb < b
    · obtain ⟨p, p1, p2, p3⟩ := fwd hsb
      by_cases hsa : s.ub > a
      · obtain ⟨q, q1, q2, q3⟩ := bwd hsa
        exact Itv.mem_sup_of_between p1 q1 p2 q2
      · have : t = a := le_antisymm (le_trans h5 (not_lt.mp hsa)) ht'.1
        rw [this] at h3
        rw [← p3 h3]
        exact Itv.mem_sup_left p1
    · have : t = b := le_antisymm ht'.2 (le_trans (not_lt.mp hsb) h4)
      obtain ⟨q, q1, q2, q3⟩ := bwd (lt_of_le_of_lt hab (lt_of_le_of_lt (not_lt.mp hsb) hs.2.1))
      rw [← q3 (by rw [h3, b3, this])]
      exact Itv.mem_sup_right q1

end Codac
