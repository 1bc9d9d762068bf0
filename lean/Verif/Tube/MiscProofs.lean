import Verif.Tube.Misc
import Verif.Tube.Locate

/-! # Lemmas on construction from lists, bounds, diameters and volume -/

set_option linter.unusedSectionVars false

namespace Codac

section order
variable {K : Type*} [LinearOrder K]

/-- contiguous non-degenerate domains from `a` to `b` -/
def Contiguous : K → List ((K × K) × Itv K) → K → Prop
  | a, [], b => a = b
  | a, d :: l, b => d.1.1 = a ∧ d.1.1 < d.1.2 ∧ Contiguous d.1.2 l b

theorem listCells_spec {tf : K} : ∀ (l : List ((K × K) × Itv K)) (a : K) (g : Itv K), l ≠ [] → Contiguous a l tf →
    Tiles a (listCells tf g l).2 tf ∧ (listCells tf g l).2 ≠ [] ∧
      (slicesFrom (listCells tf g l).1 (listCells tf g l).2).map (fun s => (s.lb, s.ub)) = l.map Prod.fst ∧
      (∀ c, l.head?.map Prod.snd = some c → (listCells tf g l).1 = g ⊓ c) ∧
      (∀ s ∈ slicesFrom (listCells tf g l).1 (listCells tf g l).2, s.inG ≤ s.cod ∧ s.outG ≤ s.cod) ∧
      ∀ f : K → K, (∀ s ∈ slicesFrom (listCells tf g l).1 (listCells tf g l).2, s.Encloses f) ↔
        f a ∈ g ∧ ∀ d ∈ l, ∀ t, d.1.1 ≤ t → t ≤ d.1.2 → f t ∈ d.2 := by
  intro l
  induction l with
  | nil => intro a g h; exact absurd rfl h
  | cons d l ih =>
    intro a g _ hc
    obtain ⟨⟨a', b⟩, c⟩ := d
    obtain ⟨h1, h2, h3⟩ := hc
    simp only at h1 h2 h3
    subst h1
    cases l with
    | nil =>
      have h3 : b = tf := h3
      subst h3
      simp only [listCells, top_inf_eq]
      refine ⟨⟨rfl, h2, rfl⟩, by simp, by simp, by simp, ?_, ?_⟩
      · intro s hs
        simp only [slicesFrom_cons, slicesFrom_nil, List.mem_singleton] at hs
        subst hs
        exact ⟨inf_le_right, le_rfl⟩
      · intro f
        simp only [slicesFrom_cons, slicesFrom_nil, List.mem_singleton, forall_eq, Slice.Encloses, Itv.mem_inf]
        constructor
        · rintro ⟨⟨e1, e2⟩, e3, e4⟩
          refine ⟨e1, fun t ht1 ht2 => ?_⟩
          rcases eq_or_lt_of_le ht1 with rfl | ht1
          · exact e2
          · rcases eq_or_lt_of_le ht2 with rfl | ht2
            · exact e3
            · exact e4 t ht1 ht2
        · rintro ⟨e1, e2⟩
          exact ⟨⟨e1, e2 _ le_rfl h2.le⟩, e2 _ h2.le le_rfl, fun t h4 h5 => e2 t h4.le h5.le⟩
    | cons d' l =>
      have hb : d'.1.1 = b := h3.1
      obtain ⟨i1, i2, i3, i4, i5, i6⟩ := ih b (⊤ ⊓ c) (by simp) h3
      have i4 := i4 d'.2 rfl
      simp only [listCells]
      generalize listCells tf (⊤ ⊓ c) (d' :: l) = r at *
      refine ⟨⟨rfl, h2, i1⟩, by simp, ?_, by simp, ?_, ?_⟩
      · rw [slicesFrom_cons, List.map_cons, i3]; rfl
      · intro s hs
        rw [slicesFrom_cons, List.mem_cons] at hs
        rcases hs with rfl | hs
        · refine ⟨inf_le_right, ?_⟩
          show r.1 ≤ c
          rw [i4]; exact le_trans inf_le_left inf_le_right
        · exact i5 s hs
      · intro f
        rw [slicesFrom_cons]
        simp only [List.forall_mem_cons]
        rw [i6]
        simp only [Slice.Encloses, Itv.mem_inf]
        rw [i4]
        simp only [Itv.mem_inf, List.forall_mem_cons]
        constructor
        · rintro ⟨⟨⟨e1, e2⟩, ⟨⟨-, e3⟩, e4⟩, e5⟩, -, e6, e7⟩
          refine ⟨e1, fun t ht1 ht2 => ?_, e6, e7⟩
          rcases eq_or_lt_of_le ht1 with rfl | ht1
          · exact e2
          · rcases eq_or_lt_of_le ht2 with rfl | ht2
            · exact e3
            · exact e5 t ht1 ht2
        · rintro ⟨e1, e2, e3, e4⟩
          refine ⟨⟨⟨e1, e2 _ le_rfl h2.le⟩, ⟨⟨Itv.mem_top _, e2 _ h2.le le_rfl⟩, ?_⟩, fun t h4 h5 => e2 t h4.le h5.le⟩,
            ⟨Itv.mem_top _, e2 _ h2.le le_rfl⟩, e3, e4⟩
          have := h3.2.1
          rw [hb] at this e3
          exact e3 b le_rfl this.le

theorem contiguous_last {a b : K} {l : List ((K × K) × Itv K)} (hl : l ≠ []) (h : Contiguous a l b) :
    ∃ d d', l.head? = some d ∧ d.1.1 = a ∧ l.getLast? = some d' ∧ d'.1.2 = b := by
  induction l generalizing a with
  | nil => exact absurd rfl hl
  | cons d l ih =>
    obtain ⟨h1, h2, h3⟩ := h
    cases l with
    | nil => exact ⟨d, d, rfl, h1, rfl, h3⟩
    | cons e l =>
      obtain ⟨_, d', _, _, e3, e4⟩ := ih (by simp) h3
      exact ⟨d, d', rfl, h1, by rw [List.getLast?_cons_cons]; exact e3, e4⟩

/-- a slice that starts early enough is visited -/
theorem mem_visited_lb {a e b : K} {g : Itv K} {cs : List (Cell K)} (ht : Tiles a cs e) {s : Slice K} (hs : s ∈ slicesFrom g cs) (hb : s.lb ≤ b) :
    s ∈ (slicesFrom g cs).takeWhile fun s => decide (s.lb ≤ b) := by
  induction cs generalizing a g with
  | nil => simp at hs
  | cons c cs ih =>
    obtain ⟨h1, h2, h3⟩ := ht
    rw [slicesFrom_cons] at hs ⊢
    rcases List.mem_cons.mp hs with rfl | hs
    · rw [List.takeWhile_cons, if_pos (by simpa using hb)]; exact List.mem_cons_self
    · have hb' := h3.mem_bounds hs
      have : c.lb ≤ b := le_trans h2.le (le_trans hb'.1 hb)
      rw [List.takeWhile_cons, if_pos (by simpa using this)]
      exact List.mem_cons_of_mem _ (ih h3 hs)

/-- evaluation of a tube through any slice holding the instant -/
theorem Tube.evalAt_slice {T : Tube K} (h : T.WF) {s : Slice K} (hs : s ∈ T.slices) {t : K} (h1 : s.lb ≤ t) (h2 : t ≤ s.ub) :
    T.evalAt t = s.evalAt t := by
  have hb := h.tiles.mem_bounds hs
  unfold Slice.evalAt
  rw [if_pos ⟨h1, h2⟩]
  split_ifs with e1 e2
  · rw [e1]; exact Tube.evalAt_lb h hs
  · rw [e2]; exact Tube.evalAt_ub h hs
  · exact Tube.evalAt_interior h hs (lt_of_le_of_ne h1 (Ne.symm e1)) (lt_of_le_of_ne h2 e2)

/-- the lower bounds (resp. upper bounds) of the `X`s are numbers, in `Y` (resp. in `Z`) -/
def BoundsIn (X Y Z : Itv K) : Prop := (∃ l, X.lo? = some l ∧ l ∈ Y) ∧ ∃ u, X.hi? = some u ∧ u ∈ Z

theorem point_le {a : K} {Y : Itv K} [Nonempty K] [NoMinOrder K] [NoMaxOrder K] : Itv.point a ≤ Y ↔ a ∈ Y := by
  rw [Itv.le_iff]
  exact ⟨fun h => h a (Itv.mem_point.mpr rfl), fun h x hx => by rw [Itv.mem_point] at hx; exact hx ▸ h⟩

theorem addBounds_spec [Nonempty K] [NoMinOrder K] [NoMaxOrder K] {p q : Itv K × Itv K} {X : Itv K} (h : addBounds p X = some q) (Y Z : Itv K) :
    (q.1 ≤ Y ∧ q.2 ≤ Z) ↔ (p.1 ≤ Y ∧ p.2 ≤ Z) ∧ BoundsIn X Y Z := by
  unfold addBounds at h
  split at h
  · rename_i l u hl hu
    rw [Option.some.injEq] at h
    subst h
    simp only [sup_le_iff, BoundsIn, hl, hu, Option.some.injEq, exists_eq_left', point_le]
    tauto
  · cases h

/-- what `Slice::eval` returns: the smallest intervals containing the bounds of the slice at all the instants -/
theorem slice_evalPair_spec [Nonempty K] [NoMinOrder K] [NoMaxOrder K] [DenselyOrdered K] {s : Slice K} (hlt : s.lb < s.ub) {a b : K} (h1 : s.lb ≤ a) (hab : a ≤ b)
    (h2 : b ≤ s.ub) {q : Itv K × Itv K} (h : s.evalPair a b = some q) (Y Z : Itv K) :
    (q.1 ≤ Y ∧ q.2 ≤ Z) ↔ ∀ t, a ≤ t → t ≤ b → BoundsIn (s.evalAt t) Y Z := by
  unfold Slice.evalPair at h
  simp only [Option.bind_eq_some_iff] at h
  obtain ⟨p1, e1, p2, e2, e3⟩ := h
  have k1 : (p1.1 ≤ Y ∧ p1.2 ≤ Z) ↔ (a ≤ s.lb → BoundsIn s.inG Y Z) := by
    split_ifs at e1 with c
    · rw [addBounds_spec e1]
      simp [c.1]
    · have : ¬ a ≤ s.lb := fun hc => c ⟨hc, le_trans h1 hab⟩
      rw [Option.some.injEq] at e1; subst e1
      simp [this]
  have k2 : (p2.1 ≤ Y ∧ p2.2 ≤ Z) ↔ (p1.1 ≤ Y ∧ p1.2 ≤ Z) ∧ (s.ub ≤ b → BoundsIn s.outG Y Z) := by
    split_ifs at e2 with c
    · rw [addBounds_spec e2]
      simp [c.2]
    · have : ¬ s.ub ≤ b := fun hc => c ⟨le_trans hab h2, hc⟩
      rw [Option.some.injEq] at e2; subst e2
      simp [this]
  have k3 : (q.1 ≤ Y ∧ q.2 ≤ Z) ↔ (p2.1 ≤ Y ∧ p2.2 ≤ Z) ∧ ((∃ t, a ≤ t ∧ t ≤ b ∧ s.lb < t ∧ t < s.ub) → BoundsIn s.cod Y Z) := by
    split_ifs at e3 with c
    · rw [addBounds_spec e3]
      have : ∃ t, a ≤ t ∧ t ≤ b ∧ s.lb < t ∧ t < s.ub := by
        obtain ⟨-, c1, c2⟩ := c
        rcases eq_or_lt_of_le hab with rfl | hab
        · exact ⟨a, le_rfl, le_rfl, lt_of_le_of_ne h1 (fun e => c1 ⟨e.symm, e.symm⟩), lt_of_le_of_ne h2 (fun e => c2 ⟨e, e⟩)⟩
        · obtain ⟨t, ht1, ht2⟩ := exists_between hab
          exact ⟨t, ht1.le, ht2.le, lt_of_le_of_lt h1 ht1, lt_of_lt_of_le ht2 h2⟩
      simp [this]
    · have : ¬ ∃ t, a ≤ t ∧ t ≤ b ∧ s.lb < t ∧ t < s.ub := by
        rintro ⟨t, t1, t2, t3, t4⟩
        apply c
        refine ⟨⟨h1, h2⟩, ?_, ?_⟩
        · rintro ⟨rfl, rfl⟩; exact absurd (lt_of_lt_of_le t3 t2) (lt_irrefl _)
        · rintro ⟨rfl, rfl⟩; exact absurd (lt_of_le_of_lt t1 t4) (lt_irrefl _)
      rw [Option.some.injEq] at e3; subst e3
      simp [this]
  rw [k3, k2, k1]
  have ev : ∀ t, a ≤ t → t ≤ b → s.evalAt t = if t = s.lb then s.inG else if t = s.ub then s.outG else s.cod := by
    intro t t1 t2
    unfold Slice.evalAt
    rw [if_pos ⟨le_trans h1 t1, le_trans t2 h2⟩]
  constructor
  · rintro ⟨⟨c1, c2⟩, c3⟩ t t1 t2
    rw [ev t t1 t2]
    split_ifs with e e'
    · exact c1 (e ▸ t1)
    · exact c2 (e' ▸ t2)
    · exact c3 ⟨t, t1, t2, lt_of_le_of_ne (le_trans h1 t1) (Ne.symm e), lt_of_le_of_ne (le_trans t2 h2) e'⟩
  · intro hall
    refine ⟨⟨fun c => ?_, fun c => ?_⟩, ?_⟩
    · have := hall s.lb c (le_trans h1 hab)
      rwa [ev _ c (le_trans h1 hab), if_pos rfl] at this
    · have := hall s.ub (le_trans hab h2) c
      rwa [ev _ (le_trans hab h2) c, if_neg hlt.ne', if_pos rfl] at this
    · rintro ⟨t, t1, t2, t3, t4⟩
      have := hall t t1 t2
      rwa [ev _ t1 t2, if_neg t3.ne', if_neg t4.ne] at this

theorem foldlM_pair {α : Type*} (φ : α → Option (Itv K × Itv K)) (Y Z : Itv K) : ∀ (l : List α) (p q : Itv K × Itv K),
    l.foldlM (fun p s => (φ s).map fun q => (p.1 ⊔ q.1, p.2 ⊔ q.2)) p = some q →
      (∀ s ∈ l, ∃ r, φ s = some r) ∧ ((q.1 ≤ Y ∧ q.2 ≤ Z) ↔ (p.1 ≤ Y ∧ p.2 ≤ Z) ∧ ∀ s ∈ l, ∀ r, φ s = some r → r.1 ≤ Y ∧ r.2 ≤ Z) := by
  intro l
  induction l with
  | nil =>
    intro p q h
    simp only [List.foldlM_nil, Option.pure_def, Option.some.injEq] at h
    subst h
    simp
  | cons s l ih =>
    intro p q h
    rw [List.foldlM_cons] at h
    cases hs : φ s with
    | none => simp [hs] at h
    | some r =>
      simp only [hs, Option.map_some, Option.bind_eq_bind, Option.bind_some] at h
      obtain ⟨i1, i2⟩ := ih _ _ h
      refine ⟨?_, ?_⟩
      · intro s' hs'
        rcases List.mem_cons.mp hs' with rfl | hs'
        · exact ⟨r, hs⟩
        · exact i1 s' hs'
      · rw [i2]
        simp only [sup_le_iff, List.forall_mem_cons, hs, Option.some.injEq]
        constructor
        · rintro ⟨⟨⟨a1, a2⟩, a3, a4⟩, a5⟩
          exact ⟨⟨a1, a3⟩, fun r' e => by subst e; exact ⟨a2, a4⟩, a5⟩
        · rintro ⟨⟨a1, a3⟩, e, a5⟩
          obtain ⟨a2, a4⟩ := e r rfl
          exact ⟨⟨⟨a1, a2⟩, a3, a4⟩, a5⟩

end order

section field
variable {K : Type*} [Field K] [LinearOrder K] [IsStrictOrderedRing K]

theorem lo?_mem {X : Itv K} {l : K} (h : X.lo? = some l) : l ∈ X ∧ ∀ x ∈ X, l ≤ x := by
  cases X with
  | empty => cases h
  | mk lo hi hb =>
    simp only [Itv.lo?] at h
    subst h
    cases hi with
    | none => exact ⟨⟨le_rfl, trivial⟩, fun x hx => hx.1⟩
    | some u => exact ⟨⟨le_rfl, hb⟩, fun x hx => hx.1⟩

theorem hi?_mem {X : Itv K} {u : K} (h : X.hi? = some u) : u ∈ X ∧ ∀ x ∈ X, x ≤ u := by
  cases X with
  | empty => cases h
  | mk lo hi hb =>
    simp only [Itv.hi?] at h
    subst h
    cases lo with
    | none => exact ⟨⟨trivial, le_rfl⟩, fun x hx => hx.2⟩
    | some l => exact ⟨⟨hb, le_rfl⟩, fun x hx => hx.2⟩

theorem setPt_after {t y : K} {l : List (K × K)} (h : ∀ p ∈ l, p.1 < t) : setPt t y l = l ++ [(t, y)] := by
  induction l with
  | nil => rfl
  | cons p l ih =>
    have hp := h p (by simp)
    rw [setPt, if_neg (not_lt.mpr hp.le), if_neg hp.ne', ih fun q hq => h q (by simp [hq])]
    rfl

/-- the points set by the loop of `Tube::lb()` -/
theorem boundLoop_spec {β : Itv K → Option K} : ∀ (cs : List (Cell K)) (a e : K) (g : Itv K) (x x' : Traj K), Tiles a cs e → TrajOk x →
    (∀ p ∈ x.pts, p.1 ≤ a) → boundLoop β (slicesFrom g cs) x = some x' →
    TrajOk x' ∧ x'.dom = cs.foldl (fun d c => d ⊔ Itv.point c.ub) x.dom ∧
      ∃ vs : List K, x'.pts = x.pts ++ (cs.map Cell.ub).zip vs ∧ List.Forall₂ (fun c v => β c.out = some v) cs vs := by
  intro cs
  induction cs with
  | nil =>
    intro a e g x x' _ hx _ h
    simp only [slicesFrom_nil, boundLoop, Option.some.injEq] at h
    subst h
    exact ⟨hx, rfl, [], by simp, .nil⟩
  | cons c cs ih =>
    intro a e g x x' ht hx hp h
    obtain ⟨h1, h2, h3⟩ := ht
    rw [slicesFrom_cons, boundLoop, Option.bind_eq_some_iff] at h
    obtain ⟨v, hv, h⟩ := h
    have hlt : ∀ p ∈ x.pts, p.1 < c.ub := fun p hp' => lt_of_le_of_lt (hp p hp') (h1 ▸ h2)
    obtain ⟨i1, i2, vs, i3, i4⟩ := ih _ _ _ _ _ h3 (hx.set v c.ub) (by
      intro p hp'
      rw [set_pts, setPt_after hlt, List.mem_append, List.mem_singleton] at hp'
      rcases hp' with hp' | rfl
      · exact (hlt p hp').le
      · exact le_rfl) h
    refine ⟨i1, by rw [i2, set_dom]; rfl, v :: vs, ?_, .cons hv i4⟩
    rw [i3, set_pts, setPt_after hlt, List.map_cons, List.zip_cons_cons, List.append_assoc]
    rfl

/-- values between two values of an interval -/
theorem interp_mem {X : Itv K} {a b u v t y : K} (hab : a < b) (h1 : a ≤ t) (h2 : t ≤ b) (hu : u ∈ X) (hv : v ∈ X)
    (e : (y - u) * (b - a) = (t - a) * (v - u)) : y ∈ X := by
  have hba : 0 < b - a := sub_pos.mpr hab
  rcases le_total u v with h | h
  · refine Itv.mem_of_between hu hv ?_ ?_
    · have : 0 ≤ (y - u) * (b - a) := by rw [e]; exact mul_nonneg (sub_nonneg.mpr h1) (sub_nonneg.mpr h)
      have := nonneg_of_mul_nonneg_left this hba
      linarith
    · have : 0 ≤ (v - y) * (b - a) := by
        have : (v - y) * (b - a) = (b - t) * (v - u) := by linear_combination -e
        rw [this]; exact mul_nonneg (sub_nonneg.mpr h2) (sub_nonneg.mpr h)
      have := nonneg_of_mul_nonneg_left this hba
      linarith
  · refine Itv.mem_of_between hv hu ?_ ?_
    · have : 0 ≤ (y - v) * (b - a) := by
        have : (y - v) * (b - a) = (b - t) * (u - v) := by linear_combination e
        rw [this]; exact mul_nonneg (sub_nonneg.mpr h2) (sub_nonneg.mpr h)
      have := nonneg_of_mul_nonneg_left this hba
      linarith
    · have : 0 ≤ (u - y) * (b - a) := by
        have : (u - y) * (b - a) = (t - a) * (u - v) := by linear_combination -e
        rw [this]; exact mul_nonneg (sub_nonneg.mpr h1) (sub_nonneg.mpr h)
      have := nonneg_of_mul_nonneg_left this hba
      linarith

end field
end Codac
