import Verif.Tube.PolySynth
import Verif.Tube.TreeIntegral
import Mathlib.Tactic.Linarith
import Mathlib.Tactic.Ring
import Mathlib.Tactic.FieldSimp
import Mathlib.Tactic.Positivity
import Mathlib.Algebra.Order.Archimedean.Basic

/-! # The polynomial synthesis of a tube: proofs -/

set_option linter.unusedSectionVars false

namespace Codac
namespace PSyn

variable {K : Type*} [Field K] [LinearOrder K] [IsStrictOrderedRing K]

theorem mem_sqr {X : Itv K} {x : K} (hx : x ∈ X) : x ^ 2 ∈ sqr X := by
  cases X with
  | empty => exact absurd hx (by simp)
  | mk l h p =>
    cases l with
    | none =>
      simp only [sqr]
      exact Itv.mem_ofBounds.mpr ⟨by simpa using sq_nonneg x, trivial⟩
    | some l =>
      cases h with
      | none =>
        simp only [sqr]
        exact Itv.mem_ofBounds.mpr ⟨by simpa using sq_nonneg x, trivial⟩
      | some h =>
        obtain ⟨h1, h2⟩ := hx
        simp only [loLe_some, leHi_some] at h1 h2
        simp only [sqr]
        split_ifs with c1 c2
        · exact Itv.mem_icc.mpr ⟨by nlinarith, by nlinarith⟩
        · exact Itv.mem_icc.mpr ⟨by nlinarith, by nlinarith⟩
        · refine Itv.mem_icc.mpr ⟨sq_nonneg x, ?_⟩
          rcases le_total 0 x with hx0 | hx0
          · exact le_max_of_le_right (by nlinarith)
          · exact le_max_of_le_left (by nlinarith)

/-- the value of the factored polynomial -/
def Fact.at (p : Fact K) (t : K) : K := p.c * (t - p.a) ^ 2 + p.b + p.offset

theorem Fact.mem_f (p : Fact K) {I : Itv K} {t : K} (ht : t ∈ I) : p.at t ∈ p.f I :=
  Itv.mem_add (Itv.mem_add (Itv.mem_mul (by simp) (mem_sqr (Itv.mem_sub ht (by simp)))) (by simp)) (by simp)

/-- the factored form is the polynomial that has been fitted, with the offset -/
theorem fact_eq (p : Poly K) (hp : p.c2 ≠ 0) {x : K} (hx : x ≠ -p.c1 / (2 * p.c2)) (o t : K) :
    (⟨-p.c1 / (2 * p.c2), p.at (-p.c1 / (2 * p.c2)), (p.at x - p.at (-p.c1 / (2 * p.c2))) / (x - -p.c1 / (2 * p.c2)) ^ 2, o⟩ : Fact K).at t
      = p.at t + o := by
  have key : ∀ y : K, p.at y - p.at (-p.c1 / (2 * p.c2)) = p.c2 * (y - -p.c1 / (2 * p.c2)) ^ 2 := by
    intro y
    unfold Poly.at
    field_simp
    ring
  have hne : (x - -p.c1 / (2 * p.c2)) ^ 2 ≠ 0 := pow_ne_zero _ (sub_ne_zero.mpr hx)
  unfold Fact.at
  simp only
  rw [key x, mul_div_assoc, div_self hne, mul_one, ← key t]
  ring

theorem foldl_max_ge {α : Type*} (g : α → K) (l : List α) : ∀ o : K, o ≤ l.foldl (fun o e => max o (g e)) o ∧
    ∀ e ∈ l, g e ≤ l.foldl (fun o e => max o (g e)) o := by
  induction l with
  | nil => intro o; simp
  | cons d l ih =>
    intro o
    simp only [List.foldl_cons, List.mem_cons]
    obtain ⟨h1, h2⟩ := ih (max o (g d))
    refine ⟨(le_max_left _ _).trans h1, ?_⟩
    rintro e (rfl | he)
    · exact (le_max_right _ _).trans h1
    · exact h2 e he

theorem foldl_min_le {α : Type*} (g : α → K) (l : List α) : ∀ o : K, l.foldl (fun o e => min o (g e)) o ≤ o ∧
    ∀ e ∈ l, l.foldl (fun o e => min o (g e)) o ≤ g e := by
  induction l with
  | nil => intro o; simp
  | cons d l ih =>
    intro o
    simp only [List.foldl_cons, List.mem_cons]
    obtain ⟨h1, h2⟩ := ih (min o (g d))
    refine ⟨h1.trans (min_le_left _ _), ?_⟩
    rintro e (rfl | he)
    · exact h1.trans (min_le_right _ _)
    · exact h2 e he

/-- at a sampled instant, the polynomial with its offset is on the right side of the sampled value -/
theorem offset_spec (upper : Bool) (p : Poly K) {l : List (K × K)} {e : K × K} (he : e ∈ l) :
    if upper then e.2 ≤ p.at e.1 + offsetOf upper p l else p.at e.1 + offsetOf upper p l ≤ e.2 := by
  cases l with
  | nil => simp at he
  | cons d l =>
    cases upper with
    | true =>
      simp only [offsetOf, if_true]
      obtain ⟨h1, h2⟩ := foldl_max_ge (fun e : K × K => e.2 - p.at e.1) l (d.2 - p.at d.1)
      rcases List.mem_cons.mp he with rfl | he
      · linarith
      · linarith [h2 e he]
    | false =>
      simp only [offsetOf, Bool.false_eq_true, if_false]
      obtain ⟨h1, h2⟩ := foldl_min_le (fun e : K × K => e.2 - p.at e.1) l (d.2 - p.at d.1)
      rcases List.mem_cons.mp he with rfl | he
      · linarith
      · linarith [h2 e he]

/-! ### The samples -/

theorem boundsLoop_mem {upper : Bool} {a b : K} {ss : List (Slice K)} {l : List (K × K)} {x y : K} (ht : STiles x ss y)
    (h : boundsLoop upper a b ss = some l) {s : Slice K} (hs : s ∈ ss) (hov : max s.lb a ≤ min s.ub b) (hx : x ≤ b) (ha : ∀ r ∈ ss, a ≤ r.ub) :
    ∃ v, boundOf upper s.cod = some v ∧ (max s.lb a, v) ∈ l ∧ (min s.ub b, v) ∈ l := by
  induction ss generalizing x l with
  | nil => simp at hs
  | cons r ss ih =>
    rw [boundsLoop] at h
    have hr : max r.lb a ≤ min r.ub b := by
      have h1 := ht.1; have h2 := ht.2.1
      have hb : a ≤ b := (le_max_right _ _).trans (hov.trans (min_le_right _ _))
      refine max_le (le_min h2.le (h1 ▸ hx)) (le_min (ha r (by simp)) hb)
    rw [if_pos hr, Option.bind_eq_some_iff] at h
    obtain ⟨v, hv, h⟩ := h
    obtain ⟨l', hl', rfl⟩ := Option.map_eq_some_iff.mp h
    rcases List.mem_cons.mp hs with rfl | hs
    · exact ⟨v, hv, by simp, by simp⟩
    · have hub : r.ub ≤ b := (ht.2.2.mem_bounds hs).1.trans ((le_max_left _ _).trans (hov.trans (min_le_right _ _)))
      obtain ⟨w, hw, m1, m2⟩ := ih ht.2.2 hl' hs hub (fun q hq => ha q (List.mem_cons_of_mem _ hq))
      exact ⟨w, hw, by simp [m1], by simp [m2]⟩

/-- the slices from `slice(t)` on -/
theorem seek_tail {a b t : K} {ss : List (Slice K)} (ht : STiles a ss b) (hne : ss ≠ []) (h1 : a ≤ t) (h2 : t ≤ b) :
    ∃ a', STiles a' (seek t ss) b ∧ a' ≤ t ∧ (∀ s ∈ ss, t < s.ub → s ∈ seek t ss) ∧ (∀ s ∈ seek t ss, s ∈ ss ∧ t ≤ s.ub) := by
  induction ss generalizing a with
  | nil => exact absurd rfl hne
  | cons s ss ih =>
    cases ss with
    | nil =>
      refine ⟨a, ht, h1, fun _ h _ => h, fun r hr => ⟨hr, ?_⟩⟩
      have : r = s := by simpa [seek] using hr
      subst this
      have e : r.ub = b := ht.2.2
      rw [e]; exact h2
    | cons s' ss =>
      rw [seek]
      split_ifs with hlt
      · refine ⟨a, ht, h1, fun _ h _ => h, fun r hr => ⟨hr, ?_⟩⟩
        rcases List.mem_cons.mp hr with rfl | hr
        · exact hlt.le
        · have := ht.2.2.mem_bounds hr
          exact hlt.le.trans (this.1.trans this.2.1.le)
      · obtain ⟨a', k1, k2, k3, k4⟩ := ih ht.2.2 (by simp) (not_lt.mp hlt)
        refine ⟨a', k1, k2, fun r hr hu => ?_, fun r hr => ⟨List.mem_cons_of_mem _ (k4 r hr).1, (k4 r hr).2⟩⟩
        rcases List.mem_cons.mp hr with rfl | hr
        · exact absurd hu hlt
        · exact k3 r hr hu

variable {T : Tube K} {fit : List (K × K) → Poly K} {r eps : K} {upper : Bool}

theorem factored_spec (ht : STiles T.t0 T.slices T.tf) {a b : K} (h1 : T.t0 ≤ a) (hab : a < b) (h2 : b ≤ T.tf) {P : Fact K}
    (h : factored fit T upper a b = some P) {s : Slice K} (hs : s ∈ T.slices) (hov : max s.lb a < min s.ub b) :
    ∃ v, boundOf upper s.cod = some v ∧ ∀ t, t = max s.lb a ∨ t = min s.ub b → if upper then v ≤ P.at t else P.at t ≤ v := by
  unfold factored at h
  rw [Option.bind_eq_some_iff] at h
  obtain ⟨l, hl, h⟩ := h
  unfold getBounds at hl
  rw [Option.bind_eq_some_iff] at hl
  obtain ⟨l', hl', e⟩ := hl
  split_ifs at e
  obtain rfl := Option.some.inj e
  have hne : T.slices ≠ [] := List.ne_nil_of_mem hs
  obtain ⟨a', k1, k2, k3, k4⟩ := seek_tail ht hne h1 (hab.le.trans h2)
  have hsu : a < s.ub := (le_max_right _ _).trans_lt (hov.trans_le (min_le_left _ _))
  obtain ⟨v, hv, m1, m2⟩ := boundsLoop_mem k1 hl' (k3 s hs hsu) hov.le (k2.trans hab.le) (fun q hq => (k4 q hq).2)
  simp only at h
  split_ifs at h with hc hx
  all_goals
    obtain rfl := Option.some.inj h
    refine ⟨v, hv, fun t htt => ?_⟩
  · rw [fact_eq _ hc (by rw [← hx]; exact hab.ne') _ t]
    rcases htt with rfl | rfl
    · exact offset_spec upper _ m1
    · exact offset_spec upper _ m2
  · rw [fact_eq _ hc hx _ t]
    rcases htt with rfl | rfl
    · exact offset_spec upper _ m1
    · exact offset_spec upper _ m2

theorem Res.join_ok {a b : K} {x y : Res K} {t : PTree K} (h : Res.join a b x y = .ok t) :
    ∃ l r, x = .ok l ∧ y = .ok r ∧ t = .node a b l r := by
  cases x <;> cases y <;> simp_all [Res.join]

/-- The value of a tree on `I` goes beyond the bound of every slice that `I` contains. -/
theorem build_sound (ht : STiles T.t0 T.slices T.tf) (hr : 0 < r) (hr1 : r < 1) {n : Nat} {a b : K} (h1 : T.t0 ≤ a) (hab : a < b) (h2 : b ≤ T.tf)
    {tr : PTree K} (h : build fit r eps T upper n a b = .ok tr) {s : Slice K} (hs : s ∈ T.slices) (hov : max s.lb a < min s.ub b)
    {I : Itv K} {t : K} (htI : t ∈ I) (hta : t = max s.lb a ∨ t = min s.ub b)
    (hI : ∀ m, max s.lb a ≤ m → m ≤ min s.ub b → m ∈ I) :
    ∃ v, boundOf upper s.cod = some v ∧ ∃ w ∈ tr.eval I, if upper then v ≤ w else w ≤ v := by
  induction n generalizing a b tr t with
  | zero => simp [build] at h
  | succ n ih =>
    rw [build] at h
    have htab : t ∈ Itv.icc a b := by
      have hl : a ≤ min s.ub b := (le_max_right _ _).trans hov.le
      have hu : max s.lb a ≤ b := hov.le.trans (min_le_right _ _)
      rcases hta with rfl | rfl
      · exact Itv.mem_icc.mpr ⟨le_max_right _ _, hu⟩
      · exact Itv.mem_icc.mpr ⟨hl, min_le_right _ _⟩
    have hint : I.intersects (.icc a b) = true := Itv.intersects_of_mem htI htab
    cases hf : factored fit T upper a b with
    | none => rw [hf] at h; simp at h
    | some P =>
      rw [hf] at h
      simp only at h
      split_ifs at h with hc
      · obtain ⟨l, q, e1, e2, rfl⟩ := Res.join_ok h
        have hm1 : a < a + r * (b - a) := by nlinarith
        have hm2 : a + r * (b - a) < b := by nlinarith
        generalize hm : a + r * (b - a) = m at hm1 hm2 e1 e2
        rw [PTree.eval]
        simp only [hint, Bool.not_true, Bool.false_eq_true, if_false]
        rcases lt_or_ge s.lb m with hlt | hge
        · have hov' : max s.lb a < min s.ub m :=
            lt_min (hov.trans_le (min_le_left _ _)) (max_lt hlt hm1)
          obtain ⟨v, hv, w, hw, hvw⟩ := ih (t := max s.lb a) h1 hm1 (hm2.le.trans h2) e1 hov'
            (hI _ le_rfl hov.le) (Or.inl rfl) (fun k k1 k2 => hI k k1 (k2.trans (min_le_min le_rfl hm2.le)))
          exact ⟨v, hv, w, Itv.mem_sup_left hw, hvw⟩
        · have e : max s.lb m = max s.lb a := by rw [max_eq_left hge, max_eq_left (hm1.le.trans hge)]
          have hov' : max s.lb m < min s.ub b := e ▸ hov
          obtain ⟨v, hv, w, hw, hvw⟩ := ih (t := max s.lb m) (h1.trans hm1.le) hm2 h2 e2 hov'
            (hI _ e.ge hov'.le) (Or.inl rfl) (fun k k1 k2 => hI k (e ▸ k1) k2)
          exact ⟨v, hv, w, Itv.mem_sup_right hw, hvw⟩
      · have := h
        injection this with this
        subst this
        obtain ⟨v, hv, hP⟩ := factored_spec ht h1 hab h2 hf hs hov
        refine ⟨v, hv, P.at t, ?_, hP t hta⟩
        rw [PTree.eval]
        simp only [hint, Bool.not_true, Bool.false_eq_true, if_false]
        split_ifs
        · exact P.mem_f htab
        · exact P.mem_f (Itv.mem_inf.mpr ⟨htI, htab⟩)

/-! ### The end of the recursion -/

theorem index_gap (ht : STiles T.t0 T.slices T.tf) (hne : T.slices ≠ []) {a b δ : K} (hδ : ∀ s ∈ T.slices, δ ≤ s.ub - s.lb)
    (h1 : T.t0 ≤ a) (hab : a ≤ b) (h2 : b ≤ T.tf) (h : timeToIndex b T.slices > timeToIndex a T.slices + 3) : δ ≤ b - a := by
  obtain ⟨s, hs, s1, s2⟩ := ht.timeToIndex hne h1 (hab.trans h2)
  obtain ⟨q, hq, q1, q2⟩ := ht.timeToIndex hne (h1.trans hab) h2
  have hlen : timeToIndex b T.slices < T.slices.length := (List.getElem?_eq_some_iff.mp hq).1
  obtain ⟨m, hm⟩ : ∃ m, T.slices[timeToIndex a T.slices + 1]? = some m := ⟨_, List.getElem?_eq_getElem (by omega)⟩
  have k1 := ht.idx_lt hs hm (by omega)
  have k2 := ht.idx_lt hm hq (by omega)
  have := hδ m (List.mem_of_getElem? hm)
  linarith

theorem Res.join_ne_more {a b : K} {x y : Res K} (hx : x ≠ .more) (hy : y ≠ .more) : Res.join a b x y ≠ .more := by
  cases x <;> cases y <;> simp_all [Res.join]

theorem build_ends (ht : STiles T.t0 T.slices T.tf) (hne : T.slices ≠ []) (hr : 0 < r) (hr1 : r < 1) {δ : K}
    (hδ : ∀ s ∈ T.slices, δ ≤ s.ub - s.lb) (n : Nat) {a b : K} (h1 : T.t0 ≤ a) (hab : a ≤ b) (h2 : b ≤ T.tf)
    (hw : (b - a) * (max r (1 - r)) ^ n < δ) : build fit r eps T upper (n + 1) a b ≠ .more := by
  induction n generalizing a b with
  | zero =>
    rw [build]
    cases factored fit T upper a b with
    | none => simp
    | some P =>
      simp only
      rw [if_neg]
      · simp
      · rintro ⟨_, h⟩
        have := index_gap ht hne hδ h1 hab h2 h
        simp only [pow_zero, mul_one] at hw
        exact absurd this (not_le.mpr hw)
  | succ n ih =>
    rw [build]
    cases factored fit T upper a b with
    | none => simp
    | some P =>
      simp only
      split_ifs
      · have hba : 0 ≤ b - a := sub_nonneg.mpr hab
        have hm1 : a ≤ a + r * (b - a) := by nlinarith
        have hm2 : a + r * (b - a) ≤ b := by nlinarith
        have hp : 0 ≤ (max r (1 - r)) ^ n := pow_nonneg (hr.le.trans (le_max_left _ _)) n
        rw [pow_succ'] at hw
        apply Res.join_ne_more
        · apply ih h1 hm1 (hm2.trans h2)
          refine lt_of_le_of_lt ?_ hw
          rw [← mul_assoc]
          refine mul_le_mul_of_nonneg_right ?_ hp
          nlinarith [le_max_left r (1 - r)]
        · apply ih (h1.trans hm1) hm2 h2
          refine lt_of_le_of_lt ?_ hw
          rw [← mul_assoc]
          refine mul_le_mul_of_nonneg_right ?_ hp
          nlinarith [le_max_right r (1 - r)]
      · simp

/-! ### Evaluation -/

theorem exists_right {x y t : K} {ss : List (Slice K)} (h : STiles x ss y) (h1 : x ≤ t) (h2 : t < y) :
    ∃ s ∈ ss, s.lb ≤ t ∧ t < s.ub := by
  induction ss generalizing x with
  | nil => exact absurd (h1.trans_lt h2) (by rw [show x = y from h]; exact lt_irrefl _)
  | cons s ss ih =>
    rcases lt_or_ge t s.ub with hlt | hge
    · exact ⟨s, by simp, h.1.symm ▸ h1, hlt⟩
    · obtain ⟨q, hq, e⟩ := ih h.2.2 hge
      exact ⟨q, List.mem_cons_of_mem _ hq, e⟩

theorem exists_left {x y t : K} {ss : List (Slice K)} (h : STiles x ss y) (h1 : x < t) (h2 : t ≤ y) :
    ∃ s ∈ ss, s.lb < t ∧ t ≤ s.ub := by
  induction ss generalizing x with
  | nil => exact absurd (h1.trans_le h2) (by rw [show x = y from h]; exact lt_irrefl _)
  | cons s ss ih =>
    rcases le_or_gt t s.ub with hle | hgt
    · exact ⟨s, by simp, h.1.symm ▸ h1, hle⟩
    · obtain ⟨q, hq, e⟩ := ih h.2.2 hgt
      exact ⟨q, List.mem_cons_of_mem _ hq, e⟩

/-- a bound of a slice is not inside another one -/
theorem no_cross {x y : K} {ss : List (Slice K)} (h : STiles x ss y) {s q : Slice K} (hs : s ∈ ss) (hq : q ∈ ss) {c : K}
    (hc : c = q.lb ∨ c = q.ub) : c ≤ s.lb ∨ s.ub ≤ c := by
  obtain ⟨i, hi⟩ := List.mem_iff_getElem?.mp hs
  obtain ⟨j, hj⟩ := List.mem_iff_getElem?.mp hq
  have bs := h.mem_bounds hs
  have bq := h.mem_bounds hq
  rcases lt_trichotomy i j with hij | rfl | hij
  · have := h.idx_lt hi hj hij
    right
    rcases hc with rfl | rfl
    · exact this
    · exact this.trans bq.2.1.le
  · rw [hi] at hj
    obtain rfl := Option.some.inj hj
    rcases hc with rfl | rfl
    · exact Or.inl le_rfl
    · exact Or.inr le_rfl
  · have := h.idx_lt hj hi hij
    left
    rcases hc with rfl | rfl
    · exact bq.2.1.le.trans this
    · exact this

theorem synth_sound (hT : T.WF) (hr : 0 < r) (hr1 : r < 1) {n : Nat} {X : PTube K} (h : enable fit r eps n T = some X) {s : Slice K}
    (hs : s ∈ T.slices) {I : Itv K} (hI : ∀ m, s.lb ≤ m → m ≤ s.ub → m ∈ I) {y : K} (hy : y ∈ s.cod) : y ∈ X.synth.eval I := by
  have ht : STiles T.t0 T.slices T.tf := hT.tiles.stiles
  have bs := ht.mem_bounds hs
  have e1 : max s.lb T.t0 = s.lb := max_eq_left bs.1
  have e2 : min s.ub T.tf = s.ub := min_eq_left bs.2.2
  unfold enable at h
  have main : ∀ {up : Bool} {tr : PTree K}, build fit r eps T up n T.t0 T.tf = .ok tr →
      ∃ v, boundOf up s.cod = some v ∧ ∃ w ∈ tr.eval I, if up then v ≤ w else w ≤ v := by
    intro up tr hb
    refine build_sound ht hr hr1 le_rfl hT.lt le_rfl hb hs (t := s.lb) (by rw [e1, e2]; exact bs.2.1)
      (hI _ le_rfl bs.2.1.le) (Or.inl e1.symm) (fun m m1 m2 => hI m (e1 ▸ m1) (e2 ▸ m2))
  split at h
  · next l u hl hu =>
    obtain rfl := Option.some.inj h
    obtain ⟨v, hv, w, hw, hvw⟩ := main hl
    obtain ⟨v', hv', w', hw', hvw'⟩ := main hu
    simp only [boundOf, Bool.false_eq_true, if_false, if_true] at hv hv' hvw hvw'
    refine Itv.mem_sup_of_between hw hw' ?_ ?_
    · refine hvw.trans ?_
      cases hc : s.cod with
      | empty => rw [hc] at hy; exact absurd hy (by simp)
      | mk l h p =>
        rw [hc] at hv hy
        simp only [Itv.lb?] at hv
        subst hv
        exact hy.1
    · refine le_trans ?_ hvw'
      cases hc : s.cod with
      | empty => rw [hc] at hy; exact absurd hy (by simp)
      | mk l h p =>
        rw [hc] at hv' hy
        simp only [Itv.ub?] at hv'
        subst hv'
        exact hy.2
  · simp at h

theorem enable_tube {n : Nat} {X : PTube K} (h : enable fit r eps n T = some X) : X.tube = T := by
  unfold enable at h
  split at h
  · obtain rfl := Option.some.inj h; rfl
  · simp at h

end PSyn
end Codac
