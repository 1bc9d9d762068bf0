import Verif.Tube.Spec

/-! # Tubes: basic lemmas on slice lists -/

namespace Codac
variable {K : Type*} [LinearOrder K]

@[simp] theorem slicesFrom_nil (g : Itv K) : slicesFrom g [] = [] := rfl
@[simp] theorem slicesFrom_cons (g : Itv K) (c : Cell K) (cs : List (Cell K)) :
    slicesFrom g (c :: cs) = ⟨c.lb, c.ub, c.cod, g, c.out⟩ :: slicesFrom c.out cs := rfl

@[simp] theorem length_slicesFrom (g : Itv K) (cs : List (Cell K)) :
    (slicesFrom g cs).length = cs.length := by
  induction cs generalizing g with
  | nil => rfl
  | cons c cs ih => simp [ih]

/-- all slices of the list satisfy `P` -/
def AllSl (P : Slice K → Prop) (g : Itv K) (cs : List (Cell K)) : Prop := ∀ s ∈ slicesFrom g cs, P s

@[simp] theorem allSl_nil (P : Slice K → Prop) (g : Itv K) : AllSl P g [] := by simp [AllSl]
@[simp] theorem allSl_cons (P : Slice K → Prop) (g : Itv K) (c : Cell K) (cs : List (Cell K)) :
    AllSl P g (c :: cs) ↔ P ⟨c.lb, c.ub, c.cod, g, c.out⟩ ∧ AllSl P c.out cs := by simp [AllSl]

theorem Tube.encloses_def (T : Tube K) (f : K → K) :
    T.Encloses f ↔ AllSl (fun s => s.Encloses f) T.g0 T.cells := Iff.rfl
theorem Tube.gc_def (T : Tube K) :
    T.GatesInEnvelopes ↔ AllSl (fun s => s.inG ≤ s.cod ∧ s.outG ≤ s.cod) T.g0 T.cells := Iff.rfl

theorem Tiles.le {a b : K} {cs : List (Cell K)} (h : Tiles a cs b) : a ≤ b := by
  induction cs generalizing a with
  | nil => exact le_of_eq h
  | cons c cs ih =>
    obtain ⟨rfl, h2, h3⟩ := h
    exact le_trans h2.le (ih h3)

theorem Tiles.lt {a b : K} {cs : List (Cell K)} (h : Tiles a cs b) (hne : cs ≠ []) : a < b := by
  cases cs with
  | nil => exact absurd rfl hne
  | cons c cs =>
    obtain ⟨rfl, h2, h3⟩ := h
    exact lt_of_lt_of_le h2 h3.le

theorem Tiles.ne_nil {a b : K} {cs : List (Cell K)} (h : Tiles a cs b) (hab : a < b) : cs ≠ [] := by
  rintro rfl; exact absurd h (ne_of_lt hab)

theorem Tube.WF.lt {T : Tube K} (h : T.WF) : T.t0 < T.tf := h.tiles.lt h.ne

/-- bounds of the slices in a tiling -/
theorem Tiles.mem_bounds {a b : K} {cs : List (Cell K)} (h : Tiles a cs b) {g : Itv K} {s : Slice K}
    (hs : s ∈ slicesFrom g cs) : a ≤ s.lb ∧ s.lb < s.ub ∧ s.ub ≤ b := by
  induction cs generalizing a g with
  | nil => simp at hs
  | cons c cs ih =>
    obtain ⟨rfl, h2, h3⟩ := h
    simp only [slicesFrom_cons, List.mem_cons] at hs
    rcases hs with rfl | hs
    · exact ⟨le_refl _, h2, h3.le⟩
    · obtain ⟨h4, h5, h6⟩ := ih h3 hs
      exact ⟨le_trans h2.le h4, h5, h6⟩

/-! ### setters -/

/-- gates of a slice are included in its envelope and in those of the neighbours -/
structure LocalGC (p n : Option (Itv K)) (s : Slice K) : Prop where
  inC : s.inG ≤ s.cod
  outC : s.outG ≤ s.cod
  inP : ∀ c, p = some c → s.inG ≤ c
  outN : ∀ c, n = some c → s.outG ≤ c

theorem infOpt_le (X : Itv K) (o : Option (Itv K)) : infOpt X o ≤ X := by
  cases o with
  | none => exact le_refl _
  | some Y => exact inf_le_left

theorem infOpt_le' {X : Itv K} {o : Option (Itv K)} {Y : Itv K} (h : o = some Y) : infOpt X o ≤ Y := by
  subst h; exact inf_le_right

theorem le_infOpt {X Z : Itv K} {o : Option (Itv K)} (h : Z ≤ X) (h' : ∀ c, o = some c → Z ≤ c) :
    Z ≤ infOpt X o := by
  cases o with
  | none => exact h
  | some Y => exact le_inf h (h' Y rfl)

theorem mem_infOpt {X : Itv K} {o : Option (Itv K)} {x : K} :
    x ∈ infOpt X o ↔ x ∈ X ∧ ∀ c, o = some c → x ∈ c := by
  cases o with
  | none => simp [infOpt]
  | some Y => simp [infOpt]

/-- length is not modified by setters -/
@[simp] theorem updFrom_length (u : Setter K) (k : Nat) (p : Option (Itv K)) (g : Itv K)
    (cs : List (Cell K)) : (updFrom u k p g cs).2.length = cs.length := by
  induction cs generalizing k p g with
  | nil => simp [updFrom]
  | cons c cs ih =>
    cases k with
    | zero => simp [updFrom]
    | succ k => simp [updFrom, ih]

/-- slice bounds are not modified by setters -/
theorem updFrom_bounds (u : Setter K) (k : Nat) (p : Option (Itv K)) (g : Itv K)
    (cs : List (Cell K)) :
    (updFrom u k p g cs).2.map (fun c => (c.lb, c.ub)) = cs.map (fun c => (c.lb, c.ub)) := by
  induction cs generalizing k p g with
  | nil => simp [updFrom]
  | cons c cs ih =>
    cases k with
    | zero => simp [updFrom]
    | succ k => simp [updFrom, ih]

theorem tiles_of_bounds {cs cs' : List (Cell K)}
    (h : cs.map (fun c => (c.lb, c.ub)) = cs'.map (fun c => (c.lb, c.ub))) {a b : K} :
    Tiles a cs b ↔ Tiles a cs' b := by
  induction cs generalizing cs' a with
  | nil => cases cs' <;> simp_all [Tiles]
  | cons c cs ih =>
    cases cs' with
    | nil => simp at h
    | cons c' cs' =>
      simp only [List.map_cons, List.cons.injEq, Prod.mk.injEq] at h
      simp only [Tiles, h.1.1, h.1.2, ih h.2]

@[simp] theorem upd_t0 (T : Tube K) (k : Nat) (u : Setter K) : (T.upd k u).t0 = T.t0 := rfl
@[simp] theorem upd_tf (T : Tube K) (k : Nat) (u : Setter K) : (T.upd k u).tf = T.tf := rfl
@[simp] theorem upd_nbSlices (T : Tube K) (k : Nat) (u : Setter K) :
    (T.upd k u).nbSlices = T.nbSlices := by simp [Tube.upd, Tube.nbSlices]

theorem upd_bounds (T : Tube K) (k : Nat) (u : Setter K) :
    (T.upd k u).cells.map (fun c => (c.lb, c.ub)) = T.cells.map (fun c => (c.lb, c.ub)) :=
  updFrom_bounds ..

theorem upd_wf {T : Tube K} (h : T.WF) (k : Nat) (u : Setter K) : (T.upd k u).WF := by
  refine ⟨?_, ?_⟩
  · have := upd_nbSlices T k u
    intro h0
    rw [Tube.nbSlices, h0] at this
    exact h.ne (List.length_eq_zero_iff.mp this.symm)
  · exact (tiles_of_bounds (upd_bounds T k u)).mpr h.tiles

theorem slicesFrom_bounds (g : Itv K) (cs : List (Cell K)) :
    (slicesFrom g cs).map (fun s => (s.lb, s.ub)) = cs.map (fun c => (c.lb, c.ub)) := by
  induction cs generalizing g with
  | nil => rfl
  | cons c cs ih => simp [ih]

theorem Tube.slices_bounds (T : Tube K) :
    T.slices.map (fun s => (s.lb, s.ub)) = T.cells.map (fun c => (c.lb, c.ub)) := slicesFrom_bounds ..

/-- local correctness of a setter with respect to a property of slices and the gate condition -/
theorem updFrom_gc {u : Setter K}
    (hu : ∀ p n s, LocalGC p n s → LocalGC p n (u p n s))
    (k : Nat) (p : Option (Itv K)) (g : Itv K) (cs : List (Cell K))
    (hp : ∀ c, p = some c → g ≤ c)
    (h : AllSl (fun s => s.inG ≤ s.cod ∧ s.outG ≤ s.cod) g cs) :
    AllSl (fun s => s.inG ≤ s.cod ∧ s.outG ≤ s.cod) (updFrom u k p g cs).1 (updFrom u k p g cs).2 ∧
      (∀ c, p = some c → (updFrom u k p g cs).1 ≤ c) := by
  induction cs generalizing k p g with
  | nil => exact ⟨by simp [updFrom], by simpa [updFrom] using hp⟩
  | cons c cs ih =>
    rw [allSl_cons] at h
    cases k with
    | zero =>
      simp only [updFrom, allSl_cons]
      have hl : LocalGC p (cs.head?.map Cell.cod) ⟨c.lb, c.ub, c.cod, g, c.out⟩ := by
        refine ⟨h.1.1, h.1.2, hp, ?_⟩
        intro e he
        cases cs with
        | nil => simp at he
        | cons c' cs =>
          simp only [List.head?_cons, Option.map_some, Option.some.injEq] at he
          subst he
          rw [allSl_cons] at h
          exact h.2.1.1
      have hl' := hu _ _ _ hl
      refine ⟨⟨⟨hl'.inC, hl'.outC⟩, ?_⟩, hl'.inP⟩
      cases cs with
      | nil => simp
      | cons c' cs =>
        rw [allSl_cons] at h ⊢
        exact ⟨⟨hl'.outN c'.cod rfl, h.2.1.2⟩, h.2.2⟩
    | succ k =>
      simp only [updFrom, allSl_cons]
      have hi := ih k (some c.cod) c.out (by rintro e ⟨⟩; exact h.1.2) h.2
      exact ⟨⟨⟨h.1.1, hi.2 c.cod rfl⟩, hi.1⟩, hp⟩

theorem upd_gc {T : Tube K} {u : Setter K} {k : Nat}
    (hu : ∀ p n s, LocalGC p n s → LocalGC p n (u p n s)) (h : T.GatesInEnvelopes) :
    (T.upd k u).GatesInEnvelopes :=
  (updFrom_gc hu k none T.g0 T.cells (by simp) h).1

/-- A setter that keeps, on each slice whose gates are consistent, the trajectory `f`, keeps the trajectory `f`
on the whole tube. `P` is any extra fact on the updated slice. -/
theorem updFrom_encloses {u : Setter K} {f : K → K}
    (k : Nat) (p : Option (Itv K)) (g : Itv K) (cs : List (Cell K))
    (hu : ∀ p n s, (slicesFrom g cs)[k]? = some s → LocalGC p n s → s.Encloses f →
      (Slice.mk s.lb s.ub (u p n s).cod (u p n s).inG (u p n s).outG).Encloses f)
    (hp : ∀ c, p = some c → g ≤ c)
    (hgc : AllSl (fun s => s.inG ≤ s.cod ∧ s.outG ≤ s.cod) g cs)
    {a b : K} (ht : Tiles a cs b)
    (h : AllSl (fun s => s.Encloses f) g cs) :
    AllSl (fun s => s.Encloses f) (updFrom u k p g cs).1 (updFrom u k p g cs).2 ∧
      (cs ≠ [] → f a ∈ (updFrom u k p g cs).1) := by
  induction cs generalizing k p g a with
  | nil => exact ⟨by simp [updFrom], by simp⟩
  | cons c cs ih =>
    rw [allSl_cons] at h hgc
    obtain ⟨rfl, ht2, ht3⟩ := ht
    cases k with
    | zero =>
      simp only [updFrom, allSl_cons]
      have hl : LocalGC p (cs.head?.map Cell.cod) ⟨c.lb, c.ub, c.cod, g, c.out⟩ := by
        refine ⟨hgc.1.1, hgc.1.2, hp, ?_⟩
        intro e he
        cases cs with
        | nil => simp at he
        | cons c' cs =>
          simp only [List.head?_cons, Option.map_some, Option.some.injEq] at he
          subst he
          rw [allSl_cons] at hgc
          exact hgc.2.1.1
      have hl' := hu p (cs.head?.map Cell.cod) _ (by simp) hl h.1
      refine ⟨⟨hl', ?_⟩, fun _ => hl'.1⟩
      cases cs with
      | nil => simp
      | cons c' cs =>
        rw [allSl_cons] at h ⊢
        refine ⟨⟨?_, h.2.1.2⟩, h.2.2⟩
        have := hl'.2.1
        rw [ht3.1]; exact this
    | succ k =>
      simp only [updFrom, allSl_cons]
      have hi := ih k (some c.cod) c.out
        (fun p n s hs => hu p n s (by simpa using hs)) (by rintro e ⟨⟩; exact hgc.1.2) hgc.2 ht3 h.2
      refine ⟨⟨⟨h.1.1, ?_, h.1.2.2⟩, hi.1⟩, fun _ => h.1.1⟩
      cases cs with
      | nil => simp only [updFrom]; exact h.1.2.1
      | cons c' cs => exact hi.2 (by simp)

theorem upd_encloses {T : Tube K} {u : Setter K} {f : K → K} {k : Nat} (hT : T.WF)
    (hgc : T.GatesInEnvelopes)
    (hu : ∀ p n s, T.slices[k]? = some s → LocalGC p n s → s.Encloses f →
      (Slice.mk s.lb s.ub (u p n s).cod (u p n s).inG (u p n s).outG).Encloses f)
    (h : T.Encloses f) : (T.upd k u).Encloses f :=
  (updFrom_encloses k none T.g0 T.cells hu (by simp) hgc hT.tiles h).1

end Codac
