import Verif.Ctc.DerivModel

/-! # `CtcDeriv`: proofs -/

set_option linter.unusedSectionVars false

namespace Codac
variable {K : Type*} [Field K] [LinearOrder K] [IsStrictOrderedRing K]

/-- one of the lower vertices is below any point above the two lower lines and the envelope -/
theorem lowerVerts_le {t0 t1 il ol cl vl vu t x : K} (hv : vl ≤ vu) (h0 : t0 ≤ t) (h1 : t ≤ t1)
    (hi : il + vl * (t - t0) ≤ x) (ho : ol + vu * (t - t1) ≤ x) (hc : cl ≤ x) :
    ∃ y ∈ lowerVerts t0 t1 il ol cl vl vu, y ≤ x := by
  unfold lowerVerts
  by_cases hd : vl = vu
  · rw [if_pos hd]
    subst hd
    rcases le_total 0 vl with h | h
    · exact ⟨il, by simp, by nlinarith⟩
    · exact ⟨ol, by simp, by nlinarith⟩
  rw [if_neg hd]
  have hw : 0 < vu - vl := sub_pos.mpr (lt_of_le_of_ne hv hd)
  dsimp only
  set ti := (il - ol + vu * t1 - vl * t0) / (vu - vl) with hti
  have e : ti * (vu - vl) = il - ol + vu * t1 - vl * t0 := by
    rw [hti]; exact div_mul_cancel₀ _ (ne_of_gt hw)
  by_cases hin : t0 ≤ ti ∧ ti ≤ t1
  · rw [if_pos hin]
    by_cases hcl : cl ≤ ol + vu * (ti - t1)
    · rw [if_pos hcl]
      rcases le_total t ti with h | h
      · rcases le_total 0 vl with h' | h'
        · exact ⟨il, by simp, by nlinarith⟩
        · exact ⟨ol + vu * (ti - t1), by simp, by nlinarith⟩
      · rcases le_total 0 vu with h' | h'
        · exact ⟨ol + vu * (ti - t1), by simp, by nlinarith⟩
        · exact ⟨ol, by simp, by nlinarith⟩
    · rw [if_neg hcl]; exact ⟨cl, by simp, hc⟩
  · rw [if_neg hin]
    rcases not_and_or.mp hin with h | h
    · have h := not_le.mp h
      rcases le_total 0 vu with h' | h'
      · refine ⟨il, by simp, ?_⟩
        have : ti * (vu - vl) < t0 * (vu - vl) := mul_lt_mul_of_pos_right h hw
        nlinarith
      · exact ⟨ol, by simp, by nlinarith⟩
    · have h := not_le.mp h
      rcases le_total 0 vl with h' | h'
      · exact ⟨il, by simp, by nlinarith⟩
      · refine ⟨ol, by simp, ?_⟩
        have : t1 * (vu - vl) < ti * (vu - vl) := mul_lt_mul_of_pos_right h hw
        nlinarith

theorem upperVerts_le {t0 t1 iu ou cu vl vu t x : K} (hv : vl ≤ vu) (h0 : t0 ≤ t) (h1 : t ≤ t1)
    (hi : x ≤ iu + vu * (t - t0)) (ho : x ≤ ou + vl * (t - t1)) (hc : x ≤ cu) :
    ∃ y ∈ upperVerts t0 t1 iu ou cu vl vu, x ≤ y := by
  unfold upperVerts
  by_cases hd : vl = vu
  · rw [if_pos hd]
    subst hd
    rcases le_total 0 vl with h | h
    · exact ⟨ou, by simp, by nlinarith⟩
    · exact ⟨iu, by simp, by nlinarith⟩
  rw [if_neg hd]
  have hw : 0 < vu - vl := sub_pos.mpr (lt_of_le_of_ne hv hd)
  dsimp only
  set ti := (ou - iu + vu * t0 - vl * t1) / (vu - vl) with hti
  have e : ti * (vu - vl) = ou - iu + vu * t0 - vl * t1 := by
    rw [hti]; exact div_mul_cancel₀ _ (ne_of_gt hw)
  by_cases hin : t0 ≤ ti ∧ ti ≤ t1
  · rw [if_pos hin]
    by_cases hcl : ou + vl * (ti - t1) ≤ cu
    · rw [if_pos hcl]
      rcases le_total t ti with h | h
      · rcases le_total 0 vu with h' | h'
        · exact ⟨ou + vl * (ti - t1), by simp, by nlinarith⟩
        · exact ⟨iu, by simp, by nlinarith⟩
      · rcases le_total 0 vl with h' | h'
        · exact ⟨ou, by simp, by nlinarith⟩
        · exact ⟨ou + vl * (ti - t1), by simp, by nlinarith⟩
    · rw [if_neg hcl]; exact ⟨cu, by simp, hc⟩
  · rw [if_neg hin]
    rcases not_and_or.mp hin with h | h
    · have h := not_le.mp h
      have : ti * (vu - vl) < t0 * (vu - vl) := mul_lt_mul_of_pos_right h hw
      rcases le_total 0 vl with h' | h'
      · exact ⟨ou, by simp, by nlinarith⟩
      · exact ⟨iu, by simp, by nlinarith⟩
    · have h := not_le.mp h
      have : t1 * (vu - vl) < ti * (vu - vl) := mul_lt_mul_of_pos_right h hw
      rcases le_total 0 vu with h' | h'
      · exact ⟨ou, by simp, by nlinarith⟩
      · exact ⟨iu, by simp, by nlinarith⟩

theorem mem_hullPts {l : List K} {x : K} (h : x ∈ l) : x ∈ hullPts l := by
  induction l with
  | nil => simp at h
  | cons a l ih =>
    rcases List.mem_cons.mp h with rfl | h
    · exact Itv.mem_sup_left (by simp)
    · exact Itv.mem_sup_right (ih h)

theorem Itv.bounds?_mem {X : Itv K} {a b x : K} (h : X.bounds? = some (a, b)) (hx : x ∈ X) : a ≤ x ∧ x ≤ b := by
  unfold Itv.bounds? at h
  split at h
  · simp only [Option.some.injEq, Prod.mk.injEq] at h
    obtain ⟨rfl, rfl⟩ := h
    exact hx
  · cases h

/-- one of the lower vertices is below any point above the line of finite slope and the envelope: increasing times -/
theorem lowerHalf_le {z : Bool} {il ol cl y0 g x : K} (h : il ≤ x ∨ ol ≤ x ∨ y0 ≤ x) (hc : cl ≤ x) :
    ∃ y ∈ lowerHalf z il ol cl y0 g, y ≤ x := by
  unfold lowerHalf
  by_cases h1 : cl ≤ (if z = true then max y0 g else y0)
  · rw [if_pos h1]
    rcases h with h | h | h
    · exact ⟨il, by simp, h⟩
    · exact ⟨ol, by simp, h⟩
    · refine ⟨_, List.mem_cons_of_mem _ List.mem_cons_self, ?_⟩
      cases z
      · exact h
      · exact le_trans (min_le_left _ _) h
  · rw [if_neg h1]; exact ⟨cl, by simp, hc⟩

theorem le_upperHalf {z : Bool} {iu ou cu y0 g x : K} (h : x ≤ iu ∨ x ≤ ou ∨ x ≤ y0) (hc : x ≤ cu) :
    ∃ y ∈ upperHalf z iu ou cu y0 g, x ≤ y := by
  unfold upperHalf
  by_cases h1 : (if z = true then min y0 g else y0) ≤ cu
  · rw [if_pos h1]
    rcases h with h | h | h
    · exact ⟨iu, by simp, h⟩
    · exact ⟨ou, by simp, h⟩
    · refine ⟨_, List.mem_cons_of_mem _ List.mem_cons_self, ?_⟩
      cases z
      · exact h
      · exact le_trans h (le_max_left _ _)
  · rw [if_neg h1]; exact ⟨cu, by simp, hc⟩

theorem polyHull_mem {z : Bool} {lb ub : K} {c i o V : Itv K} {f : K → K} (hin : f lb ∈ i) (hout : f ub ∈ o)
    {t y0 : K} (hmem : f t ∈ c) (hy0 : y0 ∈ V)
    (hv : ∀ m t, lb ≤ m → m < t → t ≤ ub → ∃ y ∈ V, f t - f m = y * (t - m))
    (h0 : lb ≤ t) (h1 : t ≤ ub) : f t ∈ polyHull z lb ub c i o V := by
  unfold polyHull
  rw [if_neg (by
    rintro (h | h | h)
    · exact Itv.ne_bot_of_mem hin h
    · exact Itv.ne_bot_of_mem hout h
    · exact Itv.ne_bot_of_mem hy0 h)]
  split
  · rename_i cl cu il iu ol ou hc' hi' ho'
    have b1 := Itv.bounds?_mem hi' hin
    have b2 := Itv.bounds?_mem ho' hout
    have b3 := Itv.bounds?_mem hc' hmem
    have elo : ∀ vl : K, (∀ y ∈ V, vl ≤ y) → ∀ m t, lb ≤ m → m ≤ t → t ≤ ub → vl * (t - m) ≤ f t - f m := by
      intro vl hvl m t hm hmt ht
      rcases eq_or_lt_of_le hmt with e | hlt
      · subst e; simp
      · obtain ⟨y, hy, e⟩ := hv m t hm hlt ht
        rw [e]
        exact mul_le_mul_of_nonneg_right (hvl y hy) (sub_nonneg.mpr hmt)
    have ehi : ∀ vu : K, (∀ y ∈ V, y ≤ vu) → ∀ m t, lb ≤ m → m ≤ t → t ≤ ub → f t - f m ≤ vu * (t - m) := by
      intro vu hvu m t hm hmt ht
      rcases eq_or_lt_of_le hmt with e | hlt
      · subst e; simp
      · obtain ⟨y, hy, e⟩ := hv m t hm hlt ht
        rw [e]
        exact mul_le_mul_of_nonneg_right (hvu y hy) (sub_nonneg.mpr hmt)
    split
    · rename_i vl vu p
      have hvv : vl ≤ vu := le_trans hy0.1 hy0.2
      have a1 := elo vl (fun y hy => hy.1) lb t le_rfl h0 h1
      have a1' := ehi vu (fun y hy => hy.2) lb t le_rfl h0 h1
      have a2 := elo vl (fun y hy => hy.1) t ub h0 h1 le_rfl
      have a2' := ehi vu (fun y hy => hy.2) t ub h0 h1 le_rfl
      obtain ⟨y1, m1, l1⟩ := lowerVerts_le (t0 := lb) (t1 := ub) (il := il) (ol := ol) (cl := cl) (x := f t) hvv h0 h1
        (by linarith) (by nlinarith) b3.1
      obtain ⟨y2, m2, l2⟩ := upperVerts_le (t0 := lb) (t1 := ub) (iu := iu) (ou := ou) (cu := cu) (x := f t) hvv h0 h1
        (by linarith) (by nlinarith) b3.2
      exact Itv.mem_of_between (mem_hullPts (List.mem_append_left _ m1)) (mem_hullPts (List.mem_append_right _ m2)) l1 l2
    · rename_i vu p
      have a1 := ehi vu (fun y hy => hy.2) lb t le_rfl h0 h1
      have a2 := ehi vu (fun y hy => hy.2) t ub h0 h1 le_rfl
      obtain ⟨y1, m1, l1⟩ := lowerHalf_le (z := z) (il := il) (ol := ol) (cl := cl) (y0 := ol + vu * (lb - ub)) (g := il) (x := f t)
        (by rcases le_total 0 vu with h | h
            · exact Or.inr (Or.inr (by nlinarith))
            · exact Or.inr (Or.inl (by nlinarith))) b3.1
      obtain ⟨y2, m2, l2⟩ := le_upperHalf (z := z) (iu := iu) (ou := ou) (cu := cu) (y0 := iu + vu * (ub - lb)) (g := ou) (x := f t)
        (by rcases le_total 0 vu with h | h
            · exact Or.inr (Or.inr (by nlinarith))
            · exact Or.inl (by nlinarith)) b3.2
      exact Itv.mem_of_between (mem_hullPts (List.mem_append_left _ m1)) (mem_hullPts (List.mem_append_right _ m2)) l1 l2
    · rename_i vl p
      have a1 := elo vl (fun y hy => hy.1) lb t le_rfl h0 h1
      have a2 := elo vl (fun y hy => hy.1) t ub h0 h1 le_rfl
      obtain ⟨y1, m1, l1⟩ := lowerHalf_le (z := z) (il := il) (ol := ol) (cl := cl) (y0 := il + vl * (ub - lb)) (g := ol) (x := f t)
        (by rcases le_total 0 vl with h | h
            · exact Or.inl (by nlinarith)
            · exact Or.inr (Or.inr (by nlinarith))) b3.1
      obtain ⟨y2, m2, l2⟩ := le_upperHalf (z := z) (iu := iu) (ou := ou) (cu := cu) (y0 := ou + vl * (lb - ub)) (g := iu) (x := f t)
        (by rcases le_total 0 vl with h | h
            · exact Or.inr (Or.inl (by nlinarith))
            · exact Or.inr (Or.inr (by nlinarith))) b3.2
      exact Itv.mem_of_between (mem_hullPts (List.mem_append_left _ m1)) (mem_hullPts (List.mem_append_right _ m2)) l1 l2
    · exact hmem
  · exact hmem

theorem polyBox_mem {z : Bool} {s : Slice K} {V : Itv K} {f : K → K} (hlt : s.lb < s.ub) (hi : s.inG ≤ s.cod) (ho : s.outG ≤ s.cod)
    (hf : s.Encloses f) (hv : ∀ m t, s.lb ≤ m → m < t → t ≤ s.ub → ∃ y ∈ V, f t - f m = y * (t - m))
    {t : K} (h0 : s.lb ≤ t) (h1 : t ≤ s.ub) : f t ∈ polyBox z s V := by
  have hmem : f t ∈ s.cod := by
    rcases eq_or_lt_of_le h0 with e | h0'
    · exact Itv.mem_of_le hi (e ▸ hf.1)
    rcases eq_or_lt_of_le h1 with e | h1'
    · exact Itv.mem_of_le ho (e ▸ hf.2.1)
    exact hf.2.2 t h0' h1'
  obtain ⟨y0, hy0, -⟩ := hv s.lb s.ub le_rfl hlt le_rfl
  unfold polyBox
  rw [if_neg (Itv.ne_bot_of_mem hmem)]
  by_cases hV : V = ⊤
  · rw [if_pos hV]; exact hmem
  rw [if_neg hV]
  exact polyHull_mem hf.1 hf.2.1 hmem hy0 hv h0 h1

theorem le_restoreInf {B : K} {X : Itv K} {x : K} (h : x ∈ X) : x ∈ restoreInf B X := by
  cases X with
  | empty => exact h
  | mk lo hi p =>
    unfold restoreInf
    rw [Itv.mem_ofBounds]
    refine ⟨?_, ?_⟩
    · split_ifs
      · trivial
      · exact h.1
    · split_ifs
      · trivial
      · exact h.2

/-- the finite bounds of the interval are strictly between `-B` and `B` -/
def Tame (B : K) (X : Itv K) : Prop :=
  (∀ a, X.lb? = some a → -B < a) ∧ ∀ b, X.ub? = some b → b < B

/-- what the contraction keeps of a trajectory: soundness of `derivSlice` -/
theorem derivSlice_encloses {A : IArith K} {B : K} {R V : Itv K} {p n : Option (Itv K)} {s : Slice K} {f : K → K}
    (hlt : s.lb < s.ub) (hg : LocalGC p n s) (hf : s.Encloses f)
    (hv : ∀ m t, s.lb ≤ m → m < t → t ≤ s.ub → ∃ y ∈ V, f t - f m = y * (t - m))
    (hB : ∀ t, s.lb ≤ t → t ≤ s.ub → -B ≤ f t ∧ f t ≤ B) :
    (Slice.mk s.lb s.ub (derivSlice A B R V p n s).cod (derivSlice A B R V p n s).inG
      (derivSlice A B R V p n s).outG).Encloses f := by
  have hcod : ∀ t, s.lb ≤ t → t ≤ s.ub → f t ∈ s.cod := by
    intro t h0 h1
    rcases eq_or_lt_of_le h0 with e | h0'
    · exact Itv.mem_of_le hg.inC (e ▸ hf.1)
    rcases eq_or_lt_of_le h1 with e | h1'
    · exact Itv.mem_of_le hg.outC (e ▸ hf.2.1)
    exact hf.2.2 t h0' h1'
  have hinP : ∀ c, p = some c → f s.lb ∈ c := fun c hc => Itv.mem_of_le (hg.inP c hc) hf.1
  have houtN : ∀ c, n = some c → f s.ub ∈ c := fun c hc => Itv.mem_of_le (hg.outN c hc) hf.2.1
  obtain ⟨y0, hy0, e0⟩ := hv s.lb s.ub le_rfl hlt le_rfl
  have hdt : (s.ub - s.lb) * y0 ∈ A.mul (.point (s.ub - s.lb)) V := A.mul_mem (by simp) hy0
  have hing : f s.lb ∈ s.inG ⊓ A.sub s.outG (A.mul (.point (s.ub - s.lb)) V) := by
    rw [Itv.mem_inf]
    refine ⟨hf.1, ?_⟩
    have : f s.lb = f s.ub - (s.ub - s.lb) * y0 := by linear_combination -e0
    rw [this]; exact A.sub_mem hf.2.1 hdt
  have houtg : f s.ub ∈ s.outG ⊓ A.add s.inG (A.mul (.point (s.ub - s.lb)) V) := by
    rw [Itv.mem_inf]
    refine ⟨hf.2.1, ?_⟩
    have : f s.ub = f s.lb + (s.ub - s.lb) * y0 := by linear_combination e0
    rw [this]; exact A.add_mem hf.1 hdt
  unfold derivSlice
  by_cases hR : (Itv.icc s.lb s.ub).intersects R = false
  · simp only [if_pos hR]; exact hf
  simp only [if_neg hR]
  set ing := s.inG ⊓ A.sub s.outG (A.mul (.point (s.ub - s.lb)) V)
  set outg := s.outG ⊓ A.add s.inG (A.mul (.point (s.ub - s.lb)) V)
  have hlb := hcod s.lb le_rfl hlt.le
  have hub := hcod s.ub hlt.le le_rfl
  by_cases hopt : s.outG ≤ outg ∨ s.inG ≤ ing
  · simp only [if_pos hopt]
    set x1 := Slice.setOutputGate outg true p n
        (Slice.setInputGate ing true p n (Slice.setEnvelope (s.cod ⊓ .icc (-B) B) true p n s)) with hx1
    have he1 : ∀ t, s.lb ≤ t → t ≤ s.ub → f t ∈ s.cod ⊓ .icc (-B) B := by
      intro t h0 h1; rw [Itv.mem_inf, Itv.mem_icc]; exact ⟨hcod t h0 h1, hB t h0 h1⟩
    have c1 : x1.cod = s.cod ⊓ .icc (-B) B := rfl
    have c2 : x1.inG = infOpt (ing ⊓ (s.cod ⊓ .icc (-B) B)) p := rfl
    have c3 : x1.outG = infOpt (outg ⊓ (s.cod ⊓ .icc (-B) B)) n := rfl
    have hx1e : x1.Encloses f := by
      refine ⟨?_, ?_, ?_⟩
      · show f s.lb ∈ x1.inG
        rw [c2, mem_infOpt, Itv.mem_inf]; exact ⟨⟨hing, he1 _ le_rfl hlt.le⟩, hinP⟩
      · show f s.ub ∈ x1.outG
        rw [c3, mem_infOpt, Itv.mem_inf]; exact ⟨⟨houtg, he1 _ hlt.le le_rfl⟩, houtN⟩
      · intro t h0 h1; rw [c1]; exact he1 t h0.le h1.le
    have hpb : ∀ t, s.lb ≤ t → t ≤ s.ub → f t ∈ polyBox A.infZero x1 V := fun t h0 h1 =>
      polyBox_mem (s := x1) hlt (by rw [c2]; exact le_trans (infOpt_le _ _) inf_le_right)
        (by rw [c3]; exact le_trans (infOpt_le _ _) inf_le_right) hx1e hv h0 h1
    have he2 : ∀ t, s.lb ≤ t → t ≤ s.ub → f t ∈ restoreInf B (s.cod ⊓ .icc (-B) B ⊓ polyBox A.infZero x1 V) := by
      intro t h0 h1; apply le_restoreInf; rw [Itv.mem_inf]; exact ⟨he1 t h0 h1, hpb t h0 h1⟩
    refine ⟨?_, ?_, ?_⟩
    · simp only [Slice.setOutputGate, Slice.setInputGate, Slice.setEnvelope, if_true]
      rw [mem_infOpt, Itv.mem_inf]; exact ⟨⟨le_restoreInf hing, he2 _ le_rfl hlt.le⟩, hinP⟩
    · simp only [Slice.setOutputGate, Slice.setInputGate, Slice.setEnvelope, if_true]
      rw [mem_infOpt, Itv.mem_inf]; exact ⟨⟨le_restoreInf houtg, he2 _ hlt.le le_rfl⟩, houtN⟩
    · intro t h0 h1
      simp only [Slice.setOutputGate, Slice.setInputGate, Slice.setEnvelope, if_true]
      exact he2 t h0.le h1.le
  · simp only [if_neg hopt]
    have he : ∀ t, s.lb ≤ t → t ≤ s.ub →
        f t ∈ s.cod ⊓ A.add ing (A.mul (.icc 0 (s.ub - s.lb)) V) ⊓ A.sub outg (A.mul (.icc 0 (s.ub - s.lb)) V) := by
      intro t h0 h1
      rw [Itv.mem_inf, Itv.mem_inf]
      refine ⟨⟨hcod t h0 h1, ?_⟩, ?_⟩
      · rcases eq_or_lt_of_le h0 with e | h0'
        · have : f t = f s.lb + 0 * y0 := by rw [e]; ring
          rw [this]; exact A.add_mem hing (A.mul_mem (by simp [hlt.le]) hy0)
        · obtain ⟨y, hy, e⟩ := hv s.lb t le_rfl h0' h1
          have : f t = f s.lb + (t - s.lb) * y := by linear_combination e
          rw [this]; exact A.add_mem hing (A.mul_mem (by simp [h0, h1]) hy)
      · rcases eq_or_lt_of_le h1 with e | h1'
        · have : f t = f s.ub - 0 * y0 := by rw [e]; ring
          rw [this]; exact A.sub_mem houtg (A.mul_mem (by simp [hlt.le]) hy0)
        · obtain ⟨y, hy, e⟩ := hv t s.ub h0 h1' le_rfl
          have : f t = f s.ub - (s.ub - t) * y := by linear_combination -e
          rw [this]; exact A.sub_mem houtg (A.mul_mem (by rw [Itv.mem_icc]; constructor <;> linarith) hy)
    refine ⟨?_, ?_, ?_⟩
    · simp only [Slice.setOutputGate, Slice.setInputGate, Slice.setEnvelope, if_true]
      rw [mem_infOpt, Itv.mem_inf]; exact ⟨⟨hing, he _ le_rfl hlt.le⟩, hinP⟩
    · simp only [Slice.setOutputGate, Slice.setInputGate, Slice.setEnvelope, if_true]
      rw [mem_infOpt, Itv.mem_inf]; exact ⟨⟨houtg, he _ hlt.le le_rfl⟩, houtN⟩
    · intro t h0 h1
      simp only [Slice.setOutputGate, Slice.setInputGate, Slice.setEnvelope, if_true]
      exact he t h0.le h1.le

theorem derivSlice_gc {A : IArith K} {B : K} {R V : Itv K} {p n : Option (Itv K)} {s : Slice K} (hg : LocalGC p n s) :
    LocalGC p n (derivSlice A B R V p n s) := by
  unfold derivSlice
  dsimp only
  split_ifs
  · exact hg
  · exact Slice.setOutputGate_gc _ (Slice.setInputGate_gc _ (Slice.setEnvelope_gc _
      (Slice.setOutputGate_gc _ (Slice.setInputGate_gc _ (Slice.setEnvelope_gc _ hg)))))
  · exact Slice.setOutputGate_gc _ (Slice.setInputGate_gc _ (Slice.setEnvelope_gc _ hg))

end Codac

namespace Codac

/-! ### Contraction: the result is included in the initial tube -/

section
variable {K : Type*} [LinearOrder K]

/-- same time domain, envelope and gates included -/
structure Slice.Below (s s0 : Slice K) : Prop where
  lb : s.lb = s0.lb
  ub : s.ub = s0.ub
  cod : s.cod ≤ s0.cod
  inG : s.inG ≤ s0.inG
  outG : s.outG ≤ s0.outG

/-- same time domain, same slices, envelopes and gates included slice by slice -/
structure Tube.Below (T T0 : Tube K) : Prop where
  t0 : T.t0 = T0.t0
  tf : T.tf = T0.tf
  g0 : T.g0 ≤ T0.g0
  slices : List.Forall₂ Slice.Below T.slices T0.slices

theorem Slice.Below.refl (s : Slice K) : s.Below s := ⟨rfl, rfl, le_rfl, le_rfl, le_rfl⟩
theorem Slice.Below.trans {s1 s2 s3 : Slice K} (h : s1.Below s2) (h' : s2.Below s3) : s1.Below s3 :=
  ⟨h.lb.trans h'.lb, h.ub.trans h'.ub, h.cod.trans h'.cod, h.inG.trans h'.inG, h.outG.trans h'.outG⟩

theorem Tube.Below.refl (T : Tube K) : T.Below T :=
  ⟨rfl, rfl, le_rfl, List.forall₂_same.mpr fun s _ => Slice.Below.refl s⟩

theorem forall₂_below_trans {l1 l2 l3 : List (Slice K)} (h : List.Forall₂ Slice.Below l1 l2)
    (h' : List.Forall₂ Slice.Below l2 l3) : List.Forall₂ Slice.Below l1 l3 := by
  induction h generalizing l3 with
  | nil => cases h'; exact .nil
  | cons a _ ih => cases h' with | cons b h' => exact .cons (a.trans b) (ih h')

theorem Tube.Below.trans {T1 T2 T3 : Tube K} (h : T1.Below T2) (h' : T2.Below T3) : T1.Below T3 :=
  ⟨h.t0.trans h'.t0, h.tf.trans h'.tf, h.g0.trans h'.g0, forall₂_below_trans h.slices h'.slices⟩

theorem Slice.Below.encloses {s s0 : Slice K} (h : s.Below s0) {f : K → K} (hf : s.Encloses f) : s0.Encloses f := by
  refine ⟨?_, ?_, ?_⟩
  · rw [← h.lb]; exact Itv.mem_of_le h.inG hf.1
  · rw [← h.ub]; exact Itv.mem_of_le h.outG hf.2.1
  · intro t h0 h1; exact Itv.mem_of_le h.cod (hf.2.2 t (h.lb ▸ h0) (h.ub ▸ h1))

theorem Tube.Below.encloses {T T0 : Tube K} (h : T.Below T0) {f : K → K} (hf : T.Encloses f) : T0.Encloses f := by
  unfold Tube.Encloses at *
  have := h.slices
  generalize T.slices = l at *
  generalize T0.slices = l0 at *
  induction this with
  | nil => simp
  | cons a _ ih =>
    intro s hs
    rcases List.mem_cons.mp hs with rfl | hs
    · exact a.encloses (hf _ (by simp))
    · exact ih (fun s hs => hf s (List.mem_cons_of_mem _ hs)) s hs

theorem updFrom_below {u : Setter K} (k : Nat) (p : Option (Itv K)) (g : Itv K) (cs : List (Cell K)) (g0 : Itv K)
    (cs0 : List (Cell K)) (hg : g ≤ g0)
    (hu : ∀ p n s s0, (slicesFrom g0 cs0)[k]? = some s0 → s.Below s0 →
      (u p n s).cod ≤ s0.cod ∧ (u p n s).inG ≤ s0.inG ∧ (u p n s).outG ≤ s0.outG)
    (h : List.Forall₂ Slice.Below (slicesFrom g cs) (slicesFrom g0 cs0)) :
    (updFrom u k p g cs).1 ≤ g0 ∧
      List.Forall₂ Slice.Below (slicesFrom (updFrom u k p g cs).1 (updFrom u k p g cs).2) (slicesFrom g0 cs0) := by
  induction cs generalizing k p g g0 cs0 with
  | nil => simp only [updFrom]; exact ⟨hg, h⟩
  | cons c cs ih =>
    cases cs0 with
    | nil => simp at h
    | cons c0 cs0 =>
      simp only [slicesFrom_cons, List.forall₂_cons] at h
      cases k with
      | zero =>
        simp only [updFrom]
        have := hu p (cs.head?.map Cell.cod) ⟨c.lb, c.ub, c.cod, g, c.out⟩ _ (by simp) h.1
        refine ⟨this.2.1, ?_⟩
        simp only [slicesFrom_cons, List.forall₂_cons]
        refine ⟨⟨h.1.lb, h.1.ub, this.1, this.2.1, this.2.2⟩, ?_⟩
        cases cs with
        | nil =>
          cases cs0 with
          | nil => exact .nil
          | cons => simp at h
        | cons d ds =>
          cases cs0 with
          | nil => simp at h
          | cons d0 ds0 =>
            simp only [slicesFrom_cons, List.forall₂_cons] at h ⊢
            exact ⟨⟨h.2.1.lb, h.2.1.ub, h.2.1.cod, this.2.2, h.2.1.outG⟩, h.2.2⟩
      | succ k =>
        simp only [updFrom]
        have := ih k (some c.cod) c.out c0.out cs0 h.1.outG
          (fun p n s s0 hs => hu p n s s0 (by simpa using hs)) h.2
        refine ⟨hg, ?_⟩
        simp only [slicesFrom_cons, List.forall₂_cons]
        exact ⟨⟨h.1.lb, h.1.ub, h.1.cod, h.1.inG, this.1⟩, this.2⟩

theorem upd_below {T T0 : Tube K} {u : Setter K} {k : Nat}
    (hu : ∀ p n s s0, T0.slices[k]? = some s0 → s.Below s0 →
      (u p n s).cod ≤ s0.cod ∧ (u p n s).inG ≤ s0.inG ∧ (u p n s).outG ≤ s0.outG)
    (h : T.Below T0) : (T.upd k u).Below T0 := by
  have := updFrom_below k none T.g0 T.cells T0.g0 T0.cells h.g0 hu h.slices
  exact ⟨h.t0, h.tf, this.1, this.2⟩

theorem foldl_upd_below {T0 : Tube K} (us : Nat → Setter K) (l : List Nat)
    (hu : ∀ k p n s s0, T0.slices[k]? = some s0 → s.Below s0 →
      (us k p n s).cod ≤ s0.cod ∧ (us k p n s).inG ≤ s0.inG ∧ (us k p n s).outG ≤ s0.outG)
    {T : Tube K} (h : T.Below T0) : (l.foldl (fun T k => T.upd k (us k)) T).Below T0 := by
  induction l generalizing T with
  | nil => exact h
  | cons k l ih => exact ih (upd_below (hu k) h)

end

variable {K : Type*} [Field K] [LinearOrder K] [IsStrictOrderedRing K]

theorem restoreInf_le {B : K} {X Y : Itv K} (h : X ≤ Y) (hY : Tame B Y) : restoreInf B X ≤ Y := by
  cases X with
  | empty => exact h
  | mk lo hi p =>
    cases Y with
    | empty => exact h.elim
    | mk lo' hi' p' =>
      obtain ⟨h1, h2⟩ : Itv.loLeLo lo' lo ∧ Itv.hiLeHi hi hi' := h
      obtain ⟨t1, t2⟩ := hY
      have key : ∀ lo1 hi1, Itv.loLeLo lo' lo1 → Itv.hiLeHi hi1 hi' → Itv.ofBounds lo1 hi1 ≤ Itv.mk lo' hi' p' := by
        intro lo1 hi1 k1 k2
        unfold Itv.ofBounds
        split_ifs
        · exact ⟨k1, k2⟩
        · exact Itv.empty_le _
      refine key _ _ ?_ ?_
      · split_ifs with h3
        · cases lo' with
          | none => trivial
          | some a => have := t1 a rfl; subst h3; exact absurd h1 (not_le.mpr this)
        · exact h1
      · split_ifs with h3
        · cases hi' with
          | none => trivial
          | some a => have := t2 a rfl; subst h3; exact absurd h2 (not_le.mpr this)
        · exact h2

/-- the contraction only removes: the result is included in any tame slice including the slice -/
theorem derivSlice_le {A : IArith K} {B : K} {R V : Itv K} (p n : Option (Itv K)) {s s0 : Slice K} (h : s.Below s0)
    (hc : Tame B s0.cod) (hi : Tame B s0.inG) (ho : Tame B s0.outG) :
    (derivSlice A B R V p n s).cod ≤ s0.cod ∧ (derivSlice A B R V p n s).inG ≤ s0.inG ∧
      (derivSlice A B R V p n s).outG ≤ s0.outG := by
  unfold derivSlice
  dsimp only
  split_ifs
  · exact ⟨h.cod, h.inG, h.outG⟩
  · simp only [Slice.setOutputGate, Slice.setInputGate, Slice.setEnvelope, if_true]
    refine ⟨?_, ?_, ?_⟩
    · exact restoreInf_le (le_trans inf_le_left (le_trans inf_le_left h.cod)) hc
    · exact le_trans (infOpt_le _ _) (le_trans inf_le_left (restoreInf_le (le_trans inf_le_left h.inG) hi))
    · exact le_trans (infOpt_le _ _) (le_trans inf_le_left (restoreInf_le (le_trans inf_le_left h.outG) ho))
  · simp only [Slice.setOutputGate, Slice.setInputGate, Slice.setEnvelope, if_true]
    refine ⟨?_, ?_, ?_⟩
    · exact le_trans inf_le_left (le_trans inf_le_left h.cod)
    · exact le_trans (infOpt_le _ _) (le_trans inf_le_left (le_trans inf_le_left h.inG))
    · exact le_trans (infOpt_le _ _) (le_trans inf_le_left (le_trans inf_le_left h.outG))

/-- `contract_gates` keeps the trajectories -/
theorem derivGates_encloses {A : IArith K} {V : Itv K} {p n : Option (Itv K)} {s : Slice K} {f : K → K}
    (hlt : s.lb < s.ub) (hg : LocalGC p n s) (hf : s.Encloses f)
    (hv : ∀ m t, s.lb ≤ m → m < t → t ≤ s.ub → ∃ y ∈ V, f t - f m = y * (t - m)) :
    (Slice.mk s.lb s.ub (derivGates A V p n s).cod (derivGates A V p n s).inG
      (derivGates A V p n s).outG).Encloses f := by
  have hinP : ∀ c, p = some c → f s.lb ∈ c := fun c hc => Itv.mem_of_le (hg.inP c hc) hf.1
  have houtN : ∀ c, n = some c → f s.ub ∈ c := fun c hc => Itv.mem_of_le (hg.outN c hc) hf.2.1
  obtain ⟨y0, hy0, e0⟩ := hv s.lb s.ub le_rfl hlt le_rfl
  have hdt : (s.ub - s.lb) * y0 ∈ A.mul (.point (s.ub - s.lb)) V := A.mul_mem (by simp) hy0
  have houtg : f s.ub ∈ s.outG ⊓ A.add s.inG (A.mul (.point (s.ub - s.lb)) V) := by
    rw [Itv.mem_inf]
    refine ⟨hf.2.1, ?_⟩
    have : f s.ub = f s.lb + (s.ub - s.lb) * y0 := by linear_combination e0
    rw [this]; exact A.add_mem hf.1 hdt
  have hing : f s.lb ∈ s.inG ⊓ A.sub (s.outG ⊓ A.add s.inG (A.mul (.point (s.ub - s.lb)) V))
      (A.mul (.point (s.ub - s.lb)) V) := by
    rw [Itv.mem_inf]
    refine ⟨hf.1, ?_⟩
    have : f s.lb = f s.ub - (s.ub - s.lb) * y0 := by linear_combination -e0
    rw [this]; exact A.sub_mem houtg hdt
  refine ⟨?_, ?_, ?_⟩
  · simp only [derivGates, Slice.setOutputGate, Slice.setInputGate, if_true]
    rw [mem_infOpt, Itv.mem_inf]
    exact ⟨⟨hing, Itv.mem_of_le hg.inC hf.1⟩, hinP⟩
  · simp only [derivGates, Slice.setOutputGate, Slice.setInputGate, if_true]
    rw [mem_infOpt, Itv.mem_inf]
    exact ⟨⟨houtg, Itv.mem_of_le hg.outC hf.2.1⟩, houtN⟩
  · intro t h0 h1
    simp only [derivGates, Slice.setOutputGate, Slice.setInputGate, if_true]
    exact hf.2.2 t h0 h1

/-- passes over the slices, in any order, keep what each setter keeps -/
theorem foldl_upd_encloses {us : Nat → Setter K} {f : K → K} {bs : List (K × K)}
    (hgc : ∀ k p n s, LocalGC p n s → LocalGC p n (us k p n s))
    (hu : ∀ k p n s, bs[k]? = some (s.lb, s.ub) → s.lb < s.ub → LocalGC p n s → s.Encloses f →
      (Slice.mk s.lb s.ub (us k p n s).cod (us k p n s).inG (us k p n s).outG).Encloses f)
    (l : List Nat) {T : Tube K} (hT : T.WF) (hg : T.GatesInEnvelopes)
    (hb : T.cells.map (fun c => (c.lb, c.ub)) = bs) (hf : T.Encloses f) :
    (l.foldl (fun T k => T.upd k (us k)) T).Encloses f := by
  induction l generalizing T with
  | nil => exact hf
  | cons k l ih =>
    refine ih (upd_wf hT k _) (upd_gc (hgc k) hg) (by rw [upd_bounds]; exact hb) (upd_encloses hT hg ?_ hf)
    intro p n s hs hl he
    refine hu k p n s ?_ (hT.tiles.mem_bounds (List.mem_of_getElem? hs)).2.1 hl he
    rw [← hb, ← Tube.slices_bounds, List.getElem?_map, hs]; rfl

/-- the derivative tube, through its slices -/
theorem codAt_slope {v : Tube K} {f : K → K} (hv : v.SlopeIn f) {k : Nat} {lb ub : K}
    (hb : (v.cells.map (fun c => (c.lb, c.ub)))[k]? = some (lb, ub)) :
    ∀ m t, lb ≤ m → m < t → t ≤ ub → ∃ y ∈ v.codAt k, f t - f m = y * (t - m) := by
  intro m t h0 h1 h2
  rw [← Tube.slices_bounds, List.getElem?_map] at hb
  cases hs : v.slices[k]? with
  | none => rw [hs] at hb; cases hb
  | some s =>
    rw [hs] at hb
    simp only [Option.map_some, Option.some.injEq, Prod.mk.injEq] at hb
    obtain ⟨rfl, rfl⟩ := hb
    have := hv s (List.mem_of_getElem? hs) m t h0 h1 h2
    simpa [Tube.codAt, hs] using this

end Codac
