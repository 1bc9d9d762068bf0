import Verif.Tube.SetAt
import Verif.Tube.Fold

/-! # Setting an interval of time: lemmas -/

namespace Codac
variable {K : Type*} [LinearOrder K]

/-- `f` satisfies the constraints of the slice outside of `[a,b]`; at `a` (resp. `b`), a slice reaching `a` from
before (resp. going beyond `b`) constrains the value with its envelope -/
def Slice.EnclosesOutside (a b : K) (f : K → K) (s : Slice K) : Prop :=
  (¬ (a ≤ s.lb ∧ s.lb ≤ b) → f s.lb ∈ s.inG) ∧ (¬ (a ≤ s.ub ∧ s.ub ≤ b) → f s.ub ∈ s.outG) ∧
  (∀ t, s.lb < t → t < s.ub → ¬ (a ≤ t ∧ t ≤ b) → f t ∈ s.cod) ∧
  (s.lb < a → a ≤ s.ub → f a ∈ s.cod) ∧ (s.lb ≤ b → b < s.ub → f b ∈ s.cod)

theorem sampleCells_outside {a b t x z : K} {g : Itv K} {cs : List (Cell K)} {f : K → K} (ht : Tiles x cs z)
    (h1 : x ≤ t) (h2 : t ≤ z) (hab : a ≤ b) (hta : t = a ∨ t = b) :
    AllSl (Slice.EnclosesOutside a b f) g (sampleCells t cs) ↔ AllSl (Slice.EnclosesOutside a b f) g cs := by
  induction cs generalizing x g with
  | nil => simp [sampleCells]
  | cons c cs ih =>
    obtain ⟨rfl, h3, h4⟩ := ht
    simp only [sampleCells]
    split_ifs with h5 h6
    · exact Iff.rfl
    · push Not at h6
      have h7 : t < c.ub := by
        rcases h5 with h5 | h5
        · exact h5
        · subst h5
          have : c.ub = z := h4
          exact lt_of_le_of_ne (this ▸ h2) (fun e => h6.2 e.symm)
      have h8 : c.lb < t := lt_of_le_of_ne h1 h6.1
      have ht' : a ≤ t ∧ t ≤ b := by rcases hta with rfl | rfl <;> simp [hab]
      simp only [inf_idem, allSl_cons, Slice.EnclosesOutside]
      constructor
      · rintro ⟨⟨e1, -, e3, e4, e5⟩, ⟨-, i2, i3, i4, i5⟩, e7⟩
        refine ⟨⟨e1, i2, ?_, ?_, ?_⟩, e7⟩
        · intro u hu1 hu2 hu
          rcases lt_trichotomy u t with h | h | h
          · exact e3 u hu1 h hu
          · exact absurd (h ▸ ht') hu
          · exact i3 u h hu2 hu
        · intro k1 k2
          exact e4 k1 ht'.1
        · intro k1 k2
          exact i5 ht'.2 k2
      · rintro ⟨⟨e1, e2, e3, e4, e5⟩, e7⟩
        refine ⟨⟨e1, fun h => absurd ht' h, fun u hu1 hu2 => e3 u hu1 (lt_trans hu2 h7), ?_, ?_⟩,
          ⟨fun h => absurd ht' h, e2, fun u hu1 hu2 => e3 u (lt_trans h8 hu1) hu2, ?_, ?_⟩, e7⟩
        · intro k1 k2; exact e4 k1 (le_trans k2 h7.le)
        · intro k1 k2; exact absurd k2 (not_lt.mpr ht'.2)
        · intro k1 k2; exact absurd k1 (not_lt.mpr ht'.1)
        · intro k1 k2; exact e5 (le_trans h8.le k1) k2
    · push Not at h5
      rw [allSl_cons, allSl_cons, ih h4 h5.1]

/-- consecutive calls of `Slice::set` on the slices `i, …, i+n-1` of a list -/
def setRun (y : Itv K) (i n : Nat) (p : Option (Itv K)) (g : Itv K) (cs : List (Cell K)) : Itv K × List (Cell K) :=
  (List.range' i n).foldl (fun r k => updFrom (Slice.set y) k p r.1 r.2) (g, cs)

theorem setRun_succ (y : Itv K) (i n : Nat) (p : Option (Itv K)) (g : Itv K) (c : Cell K) (cs : List (Cell K)) :
    setRun y (i + 1) n p g (c :: cs) =
      (g, { c with out := (setRun y i n (some c.cod) c.out cs).1 } :: (setRun y i n (some c.cod) c.out cs).2) := by
  unfold setRun
  have : List.range' (i + 1) n = (List.range' i n).map Nat.succ := by
    rw [List.range'_eq_map_range, List.range'_eq_map_range, List.map_map]
    apply List.map_congr_left
    intro k _
    simp only [Function.comp]
    omega
  rw [this, foldl_updFrom_succ (fun _ => Slice.set y)]

theorem setRun_zero (y : Itv K) (n : Nat) (p : Option (Itv K)) (g : Itv K) (c : Cell K) (cs : List (Cell K)) :
    setRun y 0 (n + 1) p g (c :: cs) =
      (infOpt y p, ⟨c.lb, c.ub, y, (setRun y 0 n (some y) (infOpt y (cs.head?.map Cell.cod)) cs).1⟩ ::
        (setRun y 0 n (some y) (infOpt y (cs.head?.map Cell.cod)) cs).2) := by
  have h0 : setRun y 0 (n + 1) p g (c :: cs) =
      setRun y 1 n p (infOpt y p) (⟨c.lb, c.ub, y, infOpt y (cs.head?.map Cell.cod)⟩ :: cs) := by
    unfold setRun
    rw [List.range'_succ, List.foldl_cons]
    rfl
  rw [h0, setRun_succ y 0]

theorem setRun_none (y : Itv K) (i : Nat) (p : Option (Itv K)) (g : Itv K) (cs : List (Cell K)) :
    setRun y i 0 p g cs = (g, cs) := rfl

/-- the slices visited from `a` on -/
def visited (a b : K) (s : Slice K) : Bool := !(Itv.icc a b ⊓ Itv.icc s.lb s.ub).isDegenerated

theorem visited_iff {a b : K} (hab : a < b) {s : Slice K} (hs : s.lb < s.ub) (ha : a ≤ s.lb) :
    visited a b s = true ↔ s.lb < b := by
  have e : Itv.icc a b ⊓ Itv.icc s.lb s.ub = Itv.icc s.lb (min b s.ub) := by
    rw [Itv.icc_eq_mk hab.le, Itv.icc_eq_mk hs.le]
    change Itv.ofBounds (some (max a s.lb)) (some (min b s.ub)) = _
    rw [max_eq_right ha]
    rfl
  unfold visited
  rw [e]
  by_cases h : s.lb < b
  · have h1 : s.lb < min b s.ub := lt_min h hs
    rw [Itv.icc_eq_mk h1.le]
    simp [Itv.isDegenerated, h1.ne, h]
  · have h1 : min b s.ub ≤ s.lb := le_trans (min_le_left _ _) (not_lt.mp h)
    rcases h1.lt_or_eq with h2 | h2
    · rw [Itv.icc_eq_empty h2]; simp [Itv.isDegenerated, h]
    · rw [h2, Itv.icc_eq_mk (le_refl _)]; simp [Itv.isDegenerated, h]

/-- number of slices visited by the loop from the first slice of the list -/
def nVisited (a b : K) (ss : List (Slice K)) : Nat := (ss.takeWhile (visited a b)).length

/-- the slices after `b` keep their constraints -/
theorem outside_after {a b x z : K} {g : Itv K} {cs : List (Cell K)} {f : K → K} (ht : Tiles x cs z) (hab : a ≤ b) (hx : b < x) :
    AllSl (fun s => s.Encloses f) g cs ↔ AllSl (Slice.EnclosesOutside a b f) g cs := by
  unfold AllSl
  apply forall₂_congr
  intro s hs
  obtain ⟨h1, h2, -⟩ := ht.mem_bounds hs
  have e1 : b < s.lb := lt_of_lt_of_le hx h1
  have e2 : b < s.ub := lt_trans e1 h2
  simp only [Slice.EnclosesOutside, Slice.Encloses]
  constructor
  · rintro ⟨i1, i2, i3⟩
    refine ⟨fun _ => i1, fun _ => i2, fun t k1 k2 _ => i3 t k1 k2, ?_, fun k => absurd k (not_le.mpr e1)⟩
    intro k1 k2
    exact absurd (lt_of_le_of_lt hab e1) (not_lt.mpr k1.le)
  · rintro ⟨i1, i2, i3, -, -⟩
    exact ⟨i1 (fun k => absurd k.2 (not_le.mpr e1)), i2 (fun k => absurd k.2 (not_le.mpr e2)),
      fun t k1 k2 => i3 t k1 k2 (fun k => absurd k.2 (not_le.mpr (lt_trans e1 k1)))⟩

/-- the slices from `b` on, the gate at `b` having been set by the last slice before `b` -/
theorem outside_from {a b z : K} {y g' : Itv K} {cs : List (Cell K)} {f : K → K} (ht : Tiles b cs z) (hab : a ≤ b) :
    AllSl (fun s => s.Encloses f) (infOpt y (cs.head?.map Cell.cod)) cs ↔
      (cs ≠ [] → f b ∈ y) ∧ AllSl (Slice.EnclosesOutside a b f) g' cs := by
  cases cs with
  | nil => simp
  | cons c cs =>
    obtain ⟨h1, h2, h3⟩ := ht
    rw [allSl_cons, allSl_cons, outside_after h3 hab (h1 ▸ h2)]
    simp only [Slice.Encloses, Slice.EnclosesOutside, List.head?_cons, Option.map_some, infOpt, Itv.mem_inf, h1]
    constructor
    · rintro ⟨⟨i1, i2, i3⟩, i4⟩
      refine ⟨fun _ => i1.1, ⟨fun k => absurd ⟨hab, le_refl _⟩ k, fun _ => i2, fun t k1 k2 _ => i3 t k1 k2,
        fun k => absurd k (not_lt.mpr hab), fun _ _ => i1.2⟩, i4⟩
    · rintro ⟨i1, ⟨-, i2, i3, -, i5⟩, i6⟩
      refine ⟨⟨⟨i1 (by simp), i5 (le_refl _) (h1 ▸ h2)⟩, i2 (fun k => absurd k.2 (not_le.mpr (h1 ▸ h2))), ?_⟩, i6⟩
      intro t k1 k2
      exact i3 t k1 k2 (fun k => absurd k.2 (not_le.mpr k1))

/-- the run over the slices from `x`, `a ≤ x < b` -/
theorem setRun_inside {a b x z : K} {y : Itv K} {p : Option (Itv K)} {g : Itv K} {cs : List (Cell K)} {f : K → K}
    (ht : Tiles x cs z) (hax : a ≤ x) (hxb : x < b) (hb : b ∈ cs.map Cell.ub) :
    (setRun y 0 (nVisited a b (slicesFrom g cs)) p g cs).1 = infOpt y p ∧
    (AllSl (fun s => s.Encloses f) (setRun y 0 (nVisited a b (slicesFrom g cs)) p g cs).1
        (setRun y 0 (nVisited a b (slicesFrom g cs)) p g cs).2 ↔
      (∀ t, x ≤ t → t ≤ b → f t ∈ y) ∧ (∀ c, p = some c → f x ∈ c) ∧ AllSl (Slice.EnclosesOutside a b f) g cs) := by
  induction cs generalizing x p g with
  | nil => simp at hb
  | cons c cs ih =>
    obtain ⟨h1, h2, h3⟩ := ht
    have hab : a < b := lt_of_le_of_lt hax hxb
    have hv : visited a b ⟨c.lb, c.ub, c.cod, g, c.out⟩ = true := (visited_iff hab h2 (h1 ▸ hax)).mpr (h1 ▸ hxb)
    have hn : nVisited a b (slicesFrom g (c :: cs)) = nVisited a b (slicesFrom c.out cs) + 1 := by
      unfold nVisited
      rw [slicesFrom_cons, List.takeWhile_cons_of_pos hv, List.length_cons]
    rw [hn, setRun_zero]
    refine ⟨rfl, ?_⟩
    have hub : c.ub ≤ b := by
      rw [List.map_cons, List.mem_cons] at hb
      rcases hb with e | e
      · exact e.symm.le
      · exact (h3.sorted.2 b e).le
    have hg : ∀ g', nVisited a b (slicesFrom g' cs) = nVisited a b (slicesFrom c.out cs) := by
      intro g'
      cases cs with
      | nil => rfl
      | cons d ds =>
        unfold nVisited
        rw [slicesFrom_cons, slicesFrom_cons]
        by_cases hd : visited a b ⟨d.lb, d.ub, d.cod, g', d.out⟩ = true
        · rw [List.takeWhile_cons_of_pos hd, List.takeWhile_cons_of_pos (by exact hd), List.length_cons, List.length_cons]
        · rw [List.takeWhile_cons_of_neg hd, List.takeWhile_cons_of_neg (by exact hd)]
    have hQ : Slice.EnclosesOutside a b f ⟨c.lb, c.ub, c.cod, g, c.out⟩ := by
      refine ⟨fun k => absurd ⟨h1 ▸ hax, h1 ▸ hxb.le⟩ k, fun k => absurd ⟨le_trans (h1 ▸ hax) h2.le, hub⟩ k, ?_, ?_, ?_⟩
      · intro t k1 k2 k
        exact absurd ⟨le_trans (h1 ▸ hax) k1.le, le_trans k2.le hub⟩ k
      · intro k; exact absurd k (not_lt.mpr (h1 ▸ hax))
      · intro _ k; exact absurd k (not_lt.mpr hub)
    rw [allSl_cons, allSl_cons]
    rcases hub.lt_or_eq with hlt | heq
    · have hb' : b ∈ cs.map Cell.ub := by
        rw [List.map_cons, List.mem_cons] at hb
        exact hb.resolve_left (fun e => hlt.ne e.symm)
      obtain ⟨i1, i2⟩ := ih (p := some y) (g := infOpt y (cs.head?.map Cell.cod)) h3 (le_trans (h1 ▸ hax) h2.le) hlt hb'
      rw [hg] at i1 i2
      rw [i2, i1]
      have hout : AllSl (Slice.EnclosesOutside a b f) (infOpt y (cs.head?.map Cell.cod)) cs ↔
          AllSl (Slice.EnclosesOutside a b f) c.out cs := by
        cases cs with
        | nil => simp
        | cons d ds =>
          rw [allSl_cons, allSl_cons]
          have hd : d.lb = c.ub := h3.1
          have : a ≤ d.lb ∧ d.lb ≤ b := ⟨by rw [hd]; exact le_trans (h1 ▸ hax) h2.le, hd ▸ hub⟩
          simp only [Slice.EnclosesOutside, this]
          simp
      rw [hout]
      simp only [Slice.Encloses, mem_infOpt]
      constructor
      · rintro ⟨⟨⟨j1, j2⟩, j3, j4⟩, j5, j6, j7⟩
        refine ⟨?_, fun d hd => h1 ▸ j2 d hd, hQ, j7⟩
        intro t k1 k2
        rcases lt_or_ge t c.ub with k | k
        · rcases (h1 ▸ k1 : c.lb ≤ t).lt_or_eq with k' | k'
          · exact j4 t k' k
          · exact k' ▸ j1
        · exact j5 t k k2
      · rintro ⟨j1, j2, -, j4⟩
        have j5 : f c.ub ∈ y := j1 _ (h1 ▸ h2.le) hub
        exact ⟨⟨⟨h1 ▸ j1 x (le_refl _) hxb.le, fun d hd => h1 ▸ j2 d hd⟩, ⟨j5, by rintro d ⟨⟩; exact j5⟩,
          fun t k1 k2 => j1 t (h1 ▸ k1.le) (le_trans k2.le hub)⟩, fun t k1 k2 => j1 t (le_trans (h1 ▸ h2.le) k1) k2,
          by rintro d ⟨⟩; exact j5, j4⟩
    · subst heq
      have hn0 : nVisited a c.ub (slicesFrom c.out cs) = 0 := by
        cases cs with
        | nil => rfl
        | cons d ds =>
          unfold nVisited
          have hd : d.lb = c.ub := h3.1
          rw [slicesFrom_cons, List.takeWhile_cons_of_neg]
          · rfl
          · rw [visited_iff hab h3.2.1 (by change a ≤ d.lb; rw [hd]; exact hab.le)]
            exact not_lt.mpr hd.symm.le
      rw [hn0, setRun_none, outside_from (g' := c.out) h3 hab.le]
      simp only [Slice.Encloses, mem_infOpt]
      constructor
      · rintro ⟨⟨⟨j1, j2⟩, ⟨j3, j3'⟩, j4⟩, j5, j6⟩
        refine ⟨?_, fun d hd => h1 ▸ j2 d hd, hQ, j6⟩
        intro t k1 k2
        rcases k2.lt_or_eq with k | k
        · rcases (h1 ▸ k1 : c.lb ≤ t).lt_or_eq with k' | k'
          · exact j4 t k' k
          · exact k' ▸ j1
        · exact k ▸ j3
      · rintro ⟨j1, j2, -, j4⟩
        have j5 : f c.ub ∈ y := j1 _ (h1 ▸ h2.le) (le_refl _)
        refine ⟨⟨⟨h1 ▸ j1 x (le_refl _) hxb.le, fun d hd => h1 ▸ j2 d hd⟩, ⟨j5, ?_⟩,
          fun t k1 k2 => j1 t (h1 ▸ k1.le) k2.le⟩, fun _ => j5, j4⟩
        intro d hd
        cases cs with
        | nil => simp at hd
        | cons e es =>
          rw [allSl_cons] at j4
          have he : e.lb = c.ub := h3.1
          simp only [List.head?_cons, Option.map_some, Option.some.injEq] at hd
          exact hd ▸ j4.1.2.2.2.2 he.le (he ▸ h3.2.1)

/-- the whole run -/
theorem setRun_encloses {a b x z : K} {y : Itv K} {p : Option (Itv K)} {g : Itv K} {cs : List (Cell K)} {f : K → K}
    (ht : Tiles x cs z) (hxa : x ≤ a) (hab : a < b) (ha : a = x ∨ a ∈ cs.map Cell.ub) (hb : b ∈ cs.map Cell.ub) :
    let i := timeToIndex a (slicesFrom g cs)
    let r := setRun y i (nVisited a b ((slicesFrom g cs).drop i)) p g cs
    r.1 = (if x = a then infOpt y p else g) ∧
    (AllSl (fun s => s.Encloses f) r.1 r.2 ↔
      (∀ t, a ≤ t → t ≤ b → f t ∈ y) ∧ (x = a → ∀ c, p = some c → f a ∈ c) ∧ AllSl (Slice.EnclosesOutside a b f) g cs) := by
  induction cs generalizing x p g with
  | nil => simp at hb
  | cons c cs ih =>
    have ht' := ht
    obtain ⟨h1, h2, h3⟩ := ht
    by_cases hx : x = a
    · subst hx
      have hi : timeToIndex x (slicesFrom g (c :: cs)) = 0 := by
        cases cs with
        | nil => rfl
        | cons d ds => rw [slicesFrom_cons, slicesFrom_cons, timeToIndex, if_pos (by exact h1 ▸ h2)]
      rw [hi]
      simp only [if_true, List.drop_zero]
      obtain ⟨i1, i2⟩ := setRun_inside (y := y) (p := p) (g := g) (f := f) ht' (le_refl x) hab hb
      refine ⟨i1, ?_⟩
      rw [i2]
      simp
    · have hlt : x < a := lt_of_le_of_ne hxa hx
      have ha' : a ∈ c.ub :: cs.map Cell.ub := ha.resolve_left (fun e => hx e.symm)
      have hcu : c.ub ≤ a := by
        rcases List.mem_cons.mp ha' with e | e
        · exact e.symm.le
        · exact (h3.sorted.2 a e).le
      have hb' : b ∈ cs.map Cell.ub := by
        rw [List.map_cons, List.mem_cons] at hb
        exact hb.resolve_left (fun e => absurd hab (not_lt.mpr (e ▸ hcu)))
      have ha2 : a = c.ub ∨ a ∈ cs.map Cell.ub := List.mem_cons.mp ha'
      have hne : cs ≠ [] := by rintro rfl; simp at hb'
      have hi : timeToIndex a (slicesFrom g (c :: cs)) = timeToIndex a (slicesFrom c.out cs) + 1 := by
        cases cs with
        | nil => exact absurd rfl hne
        | cons d ds => rw [slicesFrom_cons, slicesFrom_cons, timeToIndex, if_neg (by exact not_lt.mpr hcu)]
      obtain ⟨i1, i2⟩ := ih (p := some c.cod) (g := c.out) h3 hcu ha2 hb'
      rw [hi]
      simp only [if_neg hx, slicesFrom_cons, List.drop_succ_cons]
      rw [setRun_succ]
      refine ⟨rfl, ?_⟩
      rw [allSl_cons, allSl_cons, i2, i1]
      have hQi : ¬ (a ≤ c.lb ∧ c.lb ≤ b) := fun k => absurd k.1 (not_le.mpr (h1 ▸ hlt))
      rcases hcu.lt_or_eq with k | k
      · simp only [if_neg k.ne, Slice.Encloses, Slice.EnclosesOutside]
        constructor
        · rintro ⟨⟨j1, j2, j3⟩, j4, -, j5⟩
          refine ⟨j4, fun e => absurd e hx, ⟨fun _ => j1, fun _ => j2, fun t k1 k2 _ => j3 t k1 k2, ?_, ?_⟩, j5⟩
          · intro _ k'; exact absurd k' (not_le.mpr k)
          · intro _ k'; exact absurd k' (not_lt.mpr (le_trans hcu hab.le))
        · rintro ⟨j1, -, ⟨j2, j3, j4, -, -⟩, j5⟩
          exact ⟨⟨j2 hQi, j3 (fun k' => absurd k'.1 (not_le.mpr k)), fun t k1 k2 => j4 t k1 k2 (fun k' => absurd k'.1
            (not_le.mpr (lt_trans k2 k)))⟩, j1, fun e => absurd e k.ne, j5⟩
      · simp only [if_pos k, Slice.Encloses, Slice.EnclosesOutside, infOpt, Itv.mem_inf]
        constructor
        · rintro ⟨⟨j1, ⟨j2, j2'⟩, j3⟩, j4, -, j5⟩
          refine ⟨j4, fun e => absurd e hx, ⟨fun _ => j1, fun k' => absurd ⟨k.symm.le, k ▸ hab.le⟩ k',
            fun t k1 k2 _ => j3 t k1 k2, fun _ _ => k ▸ j2', ?_⟩, j5⟩
          intro _ k'; exact absurd k' (not_lt.mpr (le_trans hcu hab.le))
        · rintro ⟨j1, -, ⟨j2, -, j4, j6, -⟩, j5⟩
          have j7 : f a ∈ c.cod := j6 (h1 ▸ hlt) k.symm.le
          exact ⟨⟨j2 hQi, ⟨k ▸ j1 a (le_refl _) hab.le, k ▸ j7⟩, fun t k1 k2 => j4 t k1 k2 (fun k' => absurd k'.1
            (not_le.mpr (lt_of_lt_of_le k2 hcu)))⟩, j1, by rintro - d ⟨⟩; exact j7, j5⟩

theorem setItv_encloses {T : Tube K} (h : T.WF) {a b : K} (h1 : T.t0 ≤ a) (h2 : a < b) (h3 : b ≤ T.tf) (y : Itv K)
    (f : K → K) :
    (T.setItv y a b).Encloses f ↔ (∀ t, a ≤ t → t ≤ b → f t ∈ y) ∧ ∀ s ∈ T.slices, s.EnclosesOutside a b f := by
  have w1 := sample_wf h h1 (le_trans h2.le h3)
  have w2 : ((T.sample a).sample b).WF := sample_wf w1 (le_trans h1 h2.le) h3
  have ma : a = T.t0 ∨ a ∈ ((T.sample a).sample b).cells.map Cell.ub := by
    by_cases e : a = T.t0
    · exact Or.inl e
    · right
      exact (mem_ub_sampleCells w1.tiles (le_trans h1 h2.le) h3).mpr (Or.inl ((mem_ub_sampleCells h.tiles h1
        (le_trans h2.le h3)).mpr (Or.inr ⟨rfl, lt_of_le_of_ne h1 (fun k => e k.symm)⟩)))
  have mb : b ∈ ((T.sample a).sample b).cells.map Cell.ub :=
    (mem_ub_sampleCells w1.tiles (le_trans h1 h2.le) h3).mpr (Or.inr ⟨rfl, lt_of_le_of_lt h1 h2⟩)
  obtain ⟨-, key⟩ := setRun_encloses (y := y) (p := none) (g := T.g0) (f := f) w2.tiles h1 h2 ma mb
  have e1 : ∀ (l : List Nat) (T : Tube K), l.foldl (fun T k => T.upd k (Slice.set y)) T =
      { T with g0 := (l.foldl (fun r k => updFrom (Slice.set y) k none r.1 r.2) (T.g0, T.cells)).1,
               cells := (l.foldl (fun r k => updFrom (Slice.set y) k none r.1 r.2) (T.g0, T.cells)).2 } := by
    intro l
    induction l with
    | nil => intro T; rfl
    | cons k l ih => intro T; rw [List.foldl_cons, ih]; rfl
  unfold Tube.setItv
  rw [Tube.encloses_def, e1]
  refine key.trans ?_
  have e2 : AllSl (Slice.EnclosesOutside a b f) T.g0 ((T.sample a).sample b).cells ↔
      AllSl (Slice.EnclosesOutside a b f) T.g0 T.cells :=
    (sampleCells_outside w1.tiles (le_trans h1 h2.le) h3 h2.le (Or.inr rfl)).trans
      (sampleCells_outside h.tiles h1 (le_trans h2.le h3) h2.le (Or.inl rfl))
  rw [e2]
  simp only [reduceCtorEq, false_implies, implies_true, true_and]
  rfl

end Codac
