import Verif.Paving.Degree
import Mathlib.Order.Monotone.Basic
import Mathlib.Order.Lattice

/-!
# The topological degree under a change of numbers

The functions of `Verif/Paving/Degree.lean` only compare numbers: an increasing map of the bounds of the boxes (from the rational numbers to the
real numbers) does not change their results.
-/

set_option linter.unusedSectionVars false

namespace Codac

variable {K K' : Type*} [LinearOrder K] [LinearOrder K'] {φ : K → K'}

theorem bLe_map (hφ : StrictMono φ) {l h : Option K} (p : bLe l h) : bLe (l.map φ) (h.map φ) := by
  cases l <;> cases h <;> simp_all
  exact hφ.monotone p

/-- the image of an interval -/
def Itv.mapB (φ : K → K') (hφ : StrictMono φ) : Itv K → Itv K'
  | .empty => .empty
  | .mk l h p => .mk (l.map φ) (h.map φ) (bLe_map hφ p)

/-- the image of a box -/
def Box.mapB (φ : K → K') (hφ : StrictMono φ) (X : Box K) : Box K' := List.map (Itv.mapB φ hφ) X

/-- the image of a paving -/
def Paving.mapB (φ : K → K') (hφ : StrictMono φ) : Paving K → Paving K'
  | leaf b v => leaf (Box.mapB φ hφ b) v
  | node b v l r => node (Box.mapB φ hφ b) v (l.mapB φ hφ) (r.mapB φ hφ)

/-- the image of a leaf -/
def Paving.Leaf.mapB (φ : K → K') (hφ : StrictMono φ) (A : Paving.Leaf K) : Paving.Leaf K' := ⟨A.tree, A.path, Box.mapB φ hφ A.box, A.value⟩

variable (hφ : StrictMono φ)

namespace Itv

theorem mapB_inj {I J : Itv K} : I.mapB φ hφ = J.mapB φ hφ ↔ I = J := by
  constructor
  · intro h
    cases I with
    | empty => cases J with
      | empty => rfl
      | mk => cases h
    | mk l u p => cases J with
      | empty => cases h
      | mk l' u' p' =>
        simp only [mapB, mk.injEq] at h
        obtain ⟨h1, h2⟩ := h
        have e1 := Option.map_injective hφ.injective h1
        have e2 := Option.map_injective hφ.injective h2
        subst e1 e2; rfl
  · rintro rfl; rfl

@[simp] theorem mapB_isEmpty (I : Itv K) : (I.mapB φ hφ).isEmpty = I.isEmpty := by cases I <;> rfl
@[simp] theorem mapB_lb? (I : Itv K) : (I.mapB φ hφ).lb? = I.lb?.map φ := by cases I <;> rfl
@[simp] theorem mapB_ub? (I : Itv K) : (I.mapB φ hφ).ub? = I.ub?.map φ := by cases I <;> rfl
@[simp] theorem mapB_bot : (⊥ : Itv K).mapB φ hφ = ⊥ := rfl
theorem mapB_point (a : K) : (point a).mapB φ hφ = point (φ a) := rfl

@[simp] theorem mapB_isDegenerated (I : Itv K) : (I.mapB φ hφ).isDegenerated = I.isDegenerated := by
  cases I with
  | empty => rfl
  | mk l u p => cases l <;> cases u <;> simp [mapB, isDegenerated, hφ.injective.eq_iff]

theorem mapB_ofBounds (l u : Option K) : (ofBounds l u).mapB φ hφ = ofBounds (l.map φ) (u.map φ) := by
  unfold ofBounds
  by_cases h : bLe l u
  · rw [dif_pos h, dif_pos (bLe_map hφ h)]; rfl
  · rw [dif_neg h, dif_neg]
    · rfl
    · intro h'
      apply h
      cases l <;> cases u <;> simp_all [hφ.le_iff_le]

theorem mapB_icc (a b : K) : (icc a b).mapB φ hφ = icc (φ a) (φ b) := mapB_ofBounds hφ _ _

theorem mapB_inf (I J : Itv K) : (I ⊓ J).mapB φ hφ = I.mapB φ hφ ⊓ J.mapB φ hφ := by
  rw [inf_eq, inf_eq]
  cases I with
  | empty => rfl
  | mk l u p => cases J with
    | empty => rfl
    | mk l' u' p' =>
      change (ofBounds (maxLo l l') (minHi u u')).mapB φ hφ = ofBounds (maxLo (l.map φ) (l'.map φ)) (minHi (u.map φ) (u'.map φ))
      rw [mapB_ofBounds]
      congr 1
      · cases l <;> cases l' <;> simp [maxLo, hφ.monotone.map_max]
      · cases u <;> cases u' <;> simp [minHi, hφ.monotone.map_min]

theorem mapB_sup (I J : Itv K) : (I ⊔ J).mapB φ hφ = I.mapB φ hφ ⊔ J.mapB φ hφ := by
  rw [sup_eq, sup_eq]
  cases I with
  | empty => rfl
  | mk l u p => cases J with
    | empty => rfl
    | mk l' u' p' =>
      simp only [hull, mapB, mk.injEq]
      constructor
      · cases l <;> cases l' <;> simp [minLo, hφ.monotone.map_min]
      · cases u <;> cases u' <;> simp [maxHi, hφ.monotone.map_max]

theorem mem_mapB {I : Itv K} {x : K} : φ x ∈ I.mapB φ hφ ↔ x ∈ I := by
  cases I with
  | empty => exact Iff.rfl
  | mk l u p =>
    simp only [mapB, mem_mk]
    cases l <;> cases u <;> simp [hφ.le_iff_le]

@[simp] theorem mapB_intersects (I J : Itv K) : (I.mapB φ hφ).intersects (J.mapB φ hφ) = I.intersects J := by
  unfold intersects
  rw [← mapB_inf, mapB_isEmpty]

end Itv

namespace Box

@[simp] theorem mapB_isEmpty (X : Box K) : (Box.mapB φ hφ X).isEmpty = X.isEmpty := by
  cases X with
  | nil => rfl
  | cons I X => exact Itv.mapB_isEmpty hφ I

theorem mapB_inj {X Y : Box K} : Box.mapB φ hφ X = Box.mapB φ hφ Y ↔ X = Y :=
  ⟨fun h => List.map_injective_iff.2 (fun _ _ h => (Itv.mapB_inj hφ).1 h) h, fun h => by rw [h]⟩

theorem mapB_empty (n : Nat) : Box.mapB φ hφ (Box.empty n) = Box.empty n := by
  unfold Box.mapB Box.empty
  rw [List.map_replicate]; rfl

theorem mapB_setEmpty (X : Box K) : Box.mapB φ hφ (X.setEmpty) = (Box.mapB φ hφ X).setEmpty := by
  unfold setEmpty
  rw [mapB_empty, Box.mapB, List.length_map]

theorem mapB_zip {f : Itv K → Itv K → Itv K} {f' : Itv K' → Itv K' → Itv K'} (h : ∀ I J, (f I J).mapB φ hφ = f' (I.mapB φ hφ) (J.mapB φ hφ))
    (X Y : Box K) : Box.mapB φ hφ (List.zipWith f X Y) = List.zipWith f' (Box.mapB φ hφ X) (Box.mapB φ hφ Y) := by
  induction X generalizing Y with
  | nil => rfl
  | cons I X ih =>
    cases Y with
    | nil => rfl
    | cons J Y =>
      simp only [Box.mapB, List.zipWith_cons_cons, List.map_cons]
      rw [h]
      exact congrArg _ (ih Y)

theorem mapB_any (p : Itv K → Bool) (p' : Itv K' → Bool) (h : ∀ I, p' (I.mapB φ hφ) = p I) (X : Box K) :
    (Box.mapB φ hφ X).any p' = X.any p := by
  unfold Box.mapB
  rw [List.any_map]
  exact congrArg (fun q => List.any X q) (funext h)

theorem mapB_all (p : Itv K → Bool) (p' : Itv K' → Bool) (h : ∀ I, p' (I.mapB φ hφ) = p I) (X : Box K) :
    (Box.mapB φ hφ X).all p' = X.all p := by
  unfold Box.mapB
  rw [List.all_map]
  exact congrArg (fun q => List.all X q) (funext h)

@[simp] theorem mapB_all_deg (X : Box K) : (Box.mapB φ hφ X).all Itv.isDegenerated = X.all Itv.isDegenerated :=
  mapB_all hφ _ _ (Itv.mapB_isDegenerated hφ) X

theorem mapB_inter (X Y : Box K) : Box.mapB φ hφ (Box.inter X Y) = Box.inter (Box.mapB φ hφ X) (Box.mapB φ hφ Y) := by
  unfold Box.inter
  rw [mapB_isEmpty, mapB_isEmpty, ← mapB_zip hφ (f := (· ⊓ ·)) (Itv.mapB_inf hφ), mapB_any hφ _ _ (Itv.mapB_isEmpty hφ), ← mapB_setEmpty]
  split
  · rfl
  · split <;> rfl

theorem mapB_hull (X Y : Box K) : Box.mapB φ hφ (Box.hull X Y) = Box.hull (Box.mapB φ hφ X) (Box.mapB φ hφ Y) := by
  unfold Box.hull
  rw [mapB_isEmpty, mapB_isEmpty, ← mapB_zip hφ (f := (· ⊔ ·)) (Itv.mapB_sup hφ)]
  split
  · rfl
  · split <;> rfl

theorem mapB_zipB {f : Itv K → Itv K → Bool} {f' : Itv K' → Itv K' → Bool} (h : ∀ I J, f' (I.mapB φ hφ) (J.mapB φ hφ) = f I J)
    (X Y : Box K) : List.zipWith f' (Box.mapB φ hφ X) (Box.mapB φ hφ Y) = List.zipWith f X Y := by
  induction X generalizing Y with
  | nil => rfl
  | cons I X ih =>
    cases Y with
    | nil => rfl
    | cons J Y =>
      simp only [Box.mapB, List.zipWith_cons_cons, List.map_cons]
      rw [h]
      exact congrArg _ (ih Y)

@[simp] theorem mapB_intersects (X Y : Box K) : Box.intersects (Box.mapB φ hφ X) (Box.mapB φ hφ Y) = Box.intersects X Y := by
  unfold Box.intersects
  rw [mapB_isEmpty, mapB_isEmpty, mapB_zipB hφ (Itv.mapB_intersects hφ)]

end Box

namespace Paving

theorem mapB_box (P : Paving K) : (P.mapB φ hφ).box = Box.mapB φ hφ P.box := by cases P <;> rfl

theorem Leaf.mapB_inj {A B : Leaf K} : A.mapB φ hφ = B.mapB φ hφ ↔ A = B := by
  constructor
  · intro h
    cases A; cases B
    simp only [Leaf.mapB, Leaf.mk.injEq] at h
    obtain ⟨rfl, rfl, h, rfl⟩ := h
    rw [(Box.mapB_inj hφ).1 h]
  · rintro rfl; rfl

theorem mapB_leaves (P : Paving K) (t : Nat) (path : List Bool) : (P.mapB φ hφ).leaves t path = (P.leaves t path).map (Leaf.mapB φ hφ) := by
  induction P generalizing path with
  | leaf b v => rfl
  | node b v l r ihl ihr => simp only [mapB, leaves, List.map_append, ihl, ihr]

theorem mapB_intersecting (P : Paving K) (val : SetValue) (b : Box K) (t : Nat) (path : List Bool) :
    (P.mapB φ hφ).intersecting val (Box.mapB φ hφ b) t path = (P.intersecting val b t path).map (Leaf.mapB φ hφ) := by
  induction P generalizing path with
  | leaf b' v =>
    simp only [mapB, intersecting]
    rw [← Box.mapB_inter, Box.mapB_isEmpty]
    split
    · rfl
    · split <;> rfl
  | node b' v l r ihl ihr =>
    simp only [mapB, intersecting]
    rw [← Box.mapB_inter, Box.mapB_isEmpty]
    split
    · rfl
    · rw [ihl, ihr, List.map_append]

theorem mapB_intersectingWide (P : Paving K) (val : SetValue) (b : Box K) (t : Nat) (path : List Bool) :
    (P.mapB φ hφ).intersectingWide val (Box.mapB φ hφ b) t path = (P.intersectingWide val b t path).map (Leaf.mapB φ hφ) := by
  induction P generalizing path with
  | leaf b' v =>
    simp only [mapB, intersectingWide]
    rw [← Box.mapB_inter, Box.mapB_isEmpty, Box.mapB_all_deg]
    split
    · rfl
    · split <;> rfl
  | node b' v l r ihl ihr =>
    simp only [mapB, intersectingWide]
    rw [← Box.mapB_inter, Box.mapB_isEmpty, Box.mapB_all_deg]
    split
    · rfl
    · rw [ihl, ihr, List.map_append]

theorem mapB_neighbours (P : Paving K) (val : SetValue) (t : Nat) (e : Leaf K) :
    (P.mapB φ hφ).neighbours val [] t (e.mapB φ hφ) = (P.neighbours val [] t e).map (Leaf.mapB φ hφ) := by
  unfold neighbours
  change ((P.mapB φ hφ).intersecting val (Box.mapB φ hφ e.box) t []).filter _ = _
  rw [mapB_intersecting, List.filter_map]
  refine congrArg _ (List.filter_congr fun p _ => ?_)
  have h1 : (p.mapB φ hφ != e.mapB φ hφ) = (p != e) := by
    rw [Bool.eq_iff_iff, bne_iff_ne, bne_iff_ne, ne_eq, ne_eq, Leaf.mapB_inj]
  simp only [Function.comp_apply, h1]
  rfl

theorem mapB_firstLeaf (P : Paving K) (val : SetValue) (flags : List (Leaf K)) (t : Nat) (path : List Bool) :
    (P.mapB φ hφ).firstLeaf val (flags.map (Leaf.mapB φ hφ)) t path = (P.firstLeaf val flags t path).map (Leaf.mapB φ hφ) := by
  induction P generalizing path with
  | leaf b v =>
    have h1 : (flags.map (Leaf.mapB φ hφ)).contains (Leaf.mapB φ hφ ⟨t, path, b, v⟩) = flags.contains ⟨t, path, b, v⟩ := by
      rw [Bool.eq_iff_iff, List.contains_iff_mem, List.contains_iff_mem, List.mem_map]
      constructor
      · rintro ⟨a, ha, e⟩; rwa [← (Leaf.mapB_inj hφ).1 e]
      · intro h; exact ⟨_, h, rfl⟩
    have h1' : (flags.map (Leaf.mapB φ hφ)).contains ⟨t, path, Box.mapB φ hφ b, v⟩ = flags.contains ⟨t, path, b, v⟩ := h1
    simp only [mapB, firstLeaf, h1']
    split <;> rfl
  | node b v l r ihl ihr =>
    simp only [mapB, firstLeaf, ihl, ihr]
    cases l.firstLeaf val flags t (path ++ [false]) <;> rfl

end Paving

namespace Deg

/-- the image of a subset -/
def Subset.mapB (φ : K → K') (hφ : StrictMono φ) (S : Subset K) : Subset K' := ⟨S.items.map (Paving.Leaf.mapB φ hφ), S.root.mapB φ hφ⟩

theorem mapB_interiorSub (I J : Itv K) : interiorSub (I.mapB φ hφ) (J.mapB φ hφ) = interiorSub I J := by
  cases I with
  | empty => rfl
  | mk l u p => cases J with
    | empty => rfl
    | mk l' u' p' =>
      cases l <;> cases u <;> cases l' <;> cases u' <;> simp [Itv.mapB, interiorSub, hφ.lt_iff_lt]

theorem mapB_sbox (S : Subset K) : (S.mapB φ hφ).box = Box.mapB φ hφ S.box := by
  unfold Subset.box
  have : ∀ (l : List (Paving.Leaf K)) (b : Box K),
      (l.map (Paving.Leaf.mapB φ hφ)).foldl (fun b u => Box.hull b u.box) (Box.mapB φ hφ b) =
        Box.mapB φ hφ (l.foldl (fun b u => Box.hull b u.box) b) := by
    intro l
    induction l with
    | nil => intro b; rfl
    | cons a l ih =>
      intro b
      rw [List.map_cons, List.foldl_cons, List.foldl_cons, ← ih, Box.mapB_hull]; rfl
  have h := this S.items (Box.empty 2)
  rw [Box.mapB_empty] at h
  exact h

theorem mapB_strictlyIncluded (S : Subset K) : (S.mapB φ hφ).strictlyIncluded = S.strictlyIncluded := by
  unfold Subset.strictlyIncluded
  rw [mapB_sbox]
  have hr : (S.mapB φ hφ).root.box = Box.mapB φ hφ S.root.box := Paving.mapB_box hφ S.root
  rw [hr, Box.mapB_zipB hφ (mapB_interiorSub hφ)]
  congr 1
  rw [Bool.eq_iff_iff, bne_iff_ne, bne_iff_ne, ne_eq, ne_eq, Box.mapB_inj]

/-- the image of a pair -/
def mapP (φ : K → K') (hφ : StrictMono φ) (p : Paving.Leaf K × Paving.Leaf K) : Paving.Leaf K' × Paving.Leaf K' := (p.1.mapB φ hφ, p.2.mapB φ hφ)

theorem mapB_pairs (S : Subset K) : (S.mapB φ hφ).pairs = S.pairs.map (mapP φ hφ) := by
  unfold Subset.pairs
  rw [List.map_flatMap]
  change (S.items.map (Paving.Leaf.mapB φ hφ)).flatMap _ = _
  rw [List.flatMap_map]
  refine List.flatMap_congr fun u _ => ?_
  change (if u.value.meets .UNKNOWN then _ else _) = _
  by_cases hv : u.value.meets .UNKNOWN = true
  · rw [if_pos hv, if_pos hv]
    change (((S.root.mapB φ hφ).neighbours .OUT [] 0 (u.mapB φ hφ)).filter _).map _ = _
    rw [Paving.mapB_neighbours, List.filter_map, List.map_map, List.map_map]
    have e : (fun c : Paving.Leaf K' => !(Box.inter (u.mapB φ hφ).box c.box).all Itv.isDegenerated) ∘ Paving.Leaf.mapB φ hφ =
        fun c => !(Box.inter u.box c.box).all Itv.isDegenerated := by
      funext c
      change (!(Box.inter (Box.mapB φ hφ u.box) (Box.mapB φ hφ c.box)).all Itv.isDegenerated) = _
      rw [← Box.mapB_inter, Box.mapB_all_deg]
    rw [e]
    rfl
  · rw [if_neg hv, if_neg hv]; rfl

theorem mapB_boundary (S : Subset K) : (S.mapB φ hφ).boundary = S.boundary.map (Box.mapB φ hφ) := by
  unfold Subset.boundary
  rw [mapB_pairs, List.map_map, List.map_map]
  refine List.map_congr_left fun p _ => ?_
  exact (Box.mapB_inter hφ _ _).symm

theorem mapB_boxDim (b : Box K) : boxDim (Box.mapB φ hφ b) = boxDim b := by
  unfold boxDim Box.mapB
  rw [List.countP_map]
  congr 1
  funext I
  simp

theorem mapB_coface (S : Subset K) (b : Box K) : (S.mapB φ hφ).coface (Box.mapB φ hφ b) = (S.coface b).map (Box.mapB φ hφ) := by
  unfold Subset.coface
  change (match (S.root.mapB φ hφ).intersectingWide .OUT (Box.mapB φ hφ b) 0 [] with
    | [c] => if boxDim c.box = 2 then some c.box else none
    | _ => none) = _
  rw [Paving.mapB_intersectingWide]
  cases S.root.intersectingWide .OUT b 0 [] with
  | nil => rfl
  | cons c l => cases l with
    | nil =>
      simp only [List.map_cons, List.map_nil]
      change (if boxDim (Box.mapB φ hφ c.box) = 2 then some (Box.mapB φ hφ c.box) else none) = _
      rw [mapB_boxDim]
      split <;> rfl
    | cons _ _ => rfl

theorem mapB_cofaces (S : Subset K) (v cc : Box K) :
    (S.mapB φ hφ).cofaces (Box.mapB φ hφ v) (Box.mapB φ hφ cc) = (S.cofaces v cc).map (List.map (Box.mapB φ hφ)) := by
  unfold Subset.cofaces
  have e1 : ((S.mapB φ hφ).boundary.filter fun bi => Box.intersects bi (Box.mapB φ hφ v)) =
      (S.boundary.filter fun bi => Box.intersects bi v).map (Box.mapB φ hφ) := by
    rw [mapB_boundary, List.filter_map]
    congr 2
    funext bi
    simp
  have e2 : (((S.boundary.filter fun bi => Box.intersects bi v).map (Box.mapB φ hφ)).filter fun bi =>
      !(Box.inter (Box.mapB φ hφ cc) bi).all Itv.isDegenerated) =
      ((S.boundary.filter fun bi => Box.intersects bi v).filter fun bi => !(Box.inter cc bi).all Itv.isDegenerated).map (Box.mapB φ hφ) := by
    rw [List.filter_map]
    congr 2
    funext bi
    simp only [Function.comp_apply]
    rw [← Box.mapB_inter, Box.mapB_all_deg]
  simp only
  rw [e1, e2, List.length_map]
  by_cases h2 : ((S.boundary.filter fun bi => Box.intersects bi v).filter fun bi => !(Box.inter cc bi).all Itv.isDegenerated).length = 2
  · simp only [if_pos h2, List.length_map]; rfl
  · simp only [if_neg h2, List.length_map]
    split <;> rfl

section
variable [Zero K] [Zero K'] (h0 : φ 0 = 0) {F : Box K → Itv K × Itv K} {F' : Box K' → Itv K' × Itv K'}
  (hF : ∀ X, F' (Box.mapB φ hφ X) = ((F X).1.mapB φ hφ, (F X).2.mapB φ hφ))

include h0 in
theorem mapB_sign (I : Itv K) : sign (I.mapB φ hφ) = sign I := by
  unfold sign
  have : ((0 : K') ∈ I.mapB φ hφ) ↔ (0 : K) ∈ I := by rw [← h0]; exact Itv.mem_mapB hφ
  by_cases h : (0 : K) ∈ I
  · rw [if_pos h, if_pos (this.2 h)]
  · rw [if_neg h, if_neg (mt this.1 h), Itv.mapB_lb?]
    cases I.lb? with
    | none => rfl
    | some a =>
      simp only [Option.map_some]
      have : (0 < φ a) ↔ 0 < a := by rw [← h0]; exact hφ.lt_iff_lt
      by_cases h : 0 < a
      · rw [if_pos h, if_pos (this.2 h)]
      · rw [if_neg h, if_neg (mt this.1 h)]

include h0 hF

theorem mapB_signBox (c : Box K) : signBox F' (Box.mapB φ hφ c) = signBox F c := by
  unfold signBox
  rw [hF, mapB_sign hφ h0, mapB_sign hφ h0]

theorem mapB_signEdge (S : Subset K) (b : Box K) : (S.mapB φ hφ).signEdge F' (Box.mapB φ hφ b) = S.signEdge F b := by
  unfold Subset.signEdge
  rw [mapB_coface]
  cases S.coface b with
  | none => rfl
  | some c =>
    simp only [Option.map_some, Option.bind_some]
    rw [mapB_signBox hφ h0 hF]

theorem mapB_signPoint (S : Subset K) (v cc : Box K) :
    (S.mapB φ hφ).signPoint F' (Box.mapB φ hφ v) (Box.mapB φ hφ cc) = S.signPoint F v cc := by
  unfold Subset.signPoint
  rw [mapB_cofaces]
  cases S.cofaces v cc with
  | none => rfl
  | some l =>
    simp only [Option.map_some, Option.bind_some]
    have : ∀ (l : List (Box K)) (a : Int × Int),
        (l.map (Box.mapB φ hφ)).foldlM (fun a e => if boxDim e = 1 then ((S.mapB φ hφ).signEdge F' e).bind (merge a) else none) a =
          l.foldlM (fun a e => if boxDim e = 1 then (S.signEdge F e).bind (merge a) else none) a := by
      intro l
      induction l with
      | nil => intro a; rfl
      | cons e l ih =>
        intro a
        rw [List.map_cons, List.foldlM_cons, List.foldlM_cons, mapB_boxDim, mapB_signEdge hφ h0 hF]
        congr 1
        funext a'
        exact ih a'
    exact this l (0, 0)

theorem mapB_localPoint (S : Subset K) (v cc : Box K) :
    (S.mapB φ hφ).localPoint F' (Box.mapB φ hφ v) (Box.mapB φ hφ cc) = S.localPoint F v cc := by
  unfold Subset.localPoint
  rw [mapB_signPoint hφ h0 hF]

omit [Zero K] [Zero K'] h0 hF in
theorem mapB_faces (b : Box K) : faces (Box.mapB φ hφ b) = (faces b).map fun p => (Box.mapB φ hφ p.1, Box.mapB φ hφ p.2) := by
  match b with
  | [] => rfl
  | [_] => rfl
  | _ :: _ :: _ :: _ => rfl
  | [I, J] =>
    simp only [Box.mapB, List.map_cons, List.map_nil, faces, Itv.mapB_isDegenerated, Itv.mapB_lb?, Itv.mapB_ub?]
    by_cases h : I.isDegenerated = true
    · rw [if_pos h, if_pos h]
      cases J.lb? <;> cases J.ub? <;> simp [Itv.mapB_point]
    · rw [if_neg h, if_neg h]
      cases I.lb? <;> cases I.ub? <;> simp [Itv.mapB_point]

theorem mapB_localEdge (S : Subset K) (b cc : Box K) :
    (S.mapB φ hφ).localEdge F' (Box.mapB φ hφ b) (Box.mapB φ hφ cc) = S.localEdge F b cc := by
  unfold Subset.localEdge
  rw [mapB_signEdge hφ h0 hF, mapB_faces]
  cases S.signEdge F b with
  | none => rfl
  | some s =>
    simp only [Option.bind_some]
    split
    · rfl
    · cases faces b with
      | none => rfl
      | some p =>
        simp only [Option.map_some, Option.bind_some]
        rw [mapB_localPoint hφ h0 hF, mapB_localPoint hφ h0 hF]

omit [Zero K] [Zero K'] h0 hF in
theorem mapB_orientation (b c : Box K) : orientation (Box.mapB φ hφ b) (Box.mapB φ hφ c) = orientation b c := by
  have inj : ∀ a b : Option K, (a.map φ = b.map φ) ↔ a = b := fun a b => (Option.map_injective hφ.injective).eq_iff
  match b, c with
  | [], _ => rfl
  | [_], _ => rfl
  | _ :: _ :: _ :: _, _ => rfl
  | [_, _], [] => rfl
  | [_, _], [_] => rfl
  | [_, _], _ :: _ :: _ :: _ => rfl
  | [I, J], [X, Y] =>
    simp only [Box.mapB, List.map_cons, List.map_nil, orientation, Itv.mapB_isDegenerated, Itv.mapB_lb?, Itv.mapB_ub?, inj]

theorem mapB_degreeLoop (S : Subset K) (l : List (Box K)) (d : Int) :
    (S.mapB φ hφ).degreeLoop F' (l.map (Box.mapB φ hφ)) d = S.degreeLoop F l d := by
  induction l generalizing d with
  | nil => rfl
  | cons b l ih =>
    rw [List.map_cons, Subset.degreeLoop, Subset.degreeLoop, mapB_boxDim, mapB_coface]
    split
    · cases S.coface b with
      | none => rfl
      | some c =>
        simp only [Option.map_some, Option.bind_some]
        rw [mapB_localEdge hφ h0 hF]
        cases S.localEdge F b c with
        | none => rfl
        | some x =>
          simp only [Option.bind_some]
          rw [ih, mapB_orientation]
    · rfl

theorem mapB_degree (S : Subset K) : (S.mapB φ hφ).degree F' = S.degree F := by
  unfold Subset.degree
  rw [mapB_strictlyIncluded, mapB_boundary, List.length_map, mapB_degreeLoop hφ h0 hF]

theorem mapB_zeroProven (S : Subset K) : (S.mapB φ hφ).zeroProven F' = S.zeroProven F := by
  unfold Subset.zeroProven
  rw [mapB_degree hφ h0 hF]

end

end Deg
end Codac
