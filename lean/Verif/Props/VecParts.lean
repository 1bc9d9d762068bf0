import Verif.Tube.VecParts
import Verif.Traj.VectorProofs
import Verif.Props.TubeAccess
import Verif.Props.SetItv
import Verif.Props.TubeVec
import Verif.Props.TrajOps

/-!
# C144: parts of vectors of tubes, sampling, values set on an interval, inflation, shift

The specification is in terms of vectors of functions: `InVector x f` reads "the function of components `f 0`, `f 1`… is in the vector of tubes `x`"; `VecOver x n a b`
reads "`x` is made of `n` proper tubes over `[a,b]`".
-/

set_option linter.unusedSectionVars false

namespace Codac.Props
open Codac Codac.TuVec

section order
variable {K : Type*} [LinearOrder K]

/-- a vector of tubes computed component by component -/
theorem vec_map {x : List (Tube K)} {n : Nat} {a b a' b' : K} (h : VecOver x n a b) {g : Tube K → Tube K} {P : (K → K) → (K → K) → Prop}
    (hg : ∀ T ∈ x, T.WF → T.t0 = a → T.tf = b → (g T).WF ∧ (g T).t0 = a' ∧ (g T).tf = b' ∧ ∀ f f', P f f' → ((g T).Encloses f' ↔ T.Encloses f)) :
    VecOver (x.map g) n a' b' ∧ ∀ f f' : Nat → K → K, (∀ i, P (f i) (f' i)) → (InVector (x.map g) f' ↔ InVector x f) := by
  have hget : ∀ (i : Nat) (T : Tube K), x[i]? = some T → _ := fun i T hT =>
    hg T (List.mem_iff_getElem?.mpr ⟨i, hT⟩) (h.get hT).1 (h.get hT).2.1 (h.get hT).2.2
  refine ⟨vecOver_of (by rw [List.length_map, h.size]) h.pos fun i T hT => ?_, fun f f' hP => ⟨fun H i T hT => ?_, fun H i T hT => ?_⟩⟩
  · rw [List.getElem?_map, Option.map_eq_some_iff] at hT
    obtain ⟨X, hX, rfl⟩ := hT
    obtain ⟨e1, e2, e3, -⟩ := hget i X hX
    exact ⟨e1, e2, e3⟩
  · exact ((hget i T hT).2.2.2 _ _ (hP i)).mp (H i (g T) (by rw [List.getElem?_map, hT]; rfl))
  · rw [List.getElem?_map, Option.map_eq_some_iff] at hT
    obtain ⟨X, hX, rfl⟩ := hT
    exact ((hget i X hX).2.2.2 _ _ (hP i)).mpr (H i X hX)

/-- **C144**: `x.subvector(i, j)` is made of the components `i` to `j` of `x`: it contains the functions whose components are in these ones, in particular the parts of
the functions of `x` -/
theorem C144_subvector {x : List (Tube K)} {n : Nat} {a b : K} (h : VecOver x n a b) {i j : Nat} (hij : i ≤ j) (hj : j < n) :
    ∃ y, subvector x i j = some y ∧ VecOver y (j - i + 1) a b ∧
      (∀ f, InVector y f ↔ ∀ (k : Nat) (T : Tube K), i ≤ k → k ≤ j → x[k]? = some T → T.Encloses (f (k - i))) ∧
      ∀ g, InVector x g → InVector y fun k => g (i + k) := by
  have hget : ∀ k, ((x.drop i).take (j - i + 1))[k]? = if k < j - i + 1 then x[i + k]? else none := fun k => by
    rw [List.getElem?_take, List.getElem?_drop]
  have hi : ∀ f, InVector ((x.drop i).take (j - i + 1)) f ↔ ∀ (k : Nat) (T : Tube K), i ≤ k → k ≤ j → x[k]? = some T → T.Encloses (f (k - i)) := by
    intro f
    constructor
    · intro H k T h1 h2 hT
      refine H (k - i) T ?_
      rw [hget, if_pos (by omega), show i + (k - i) = k by omega]
      exact hT
    · intro H k T hT
      rw [hget] at hT
      split_ifs at hT with hk
      have := H (i + k) T (by omega) (by omega) hT
      rwa [show i + k - i = k by omega] at this
  refine ⟨_, if_pos ⟨by rw [h.size]; exact hj, hij, by rw [h.dom]; simp⟩, vecOver_of ?_ (by omega) fun k T hT => ?_, hi, fun g hg => ?_⟩
  · rw [List.length_take, List.length_drop, h.size]; omega
  · rw [hget] at hT
    split_ifs at hT
    exact h.get hT
  · rw [hi]
    intro k T h1 h2 hT
    rw [show i + (k - i) = k by omega]
    exact hg k T hT

/-- **C144**: `x.put(i, s)` replaces the components from `i` on by those of `s`, on the same temporal domain, and no other -/
theorem C144_put_partial {x s : List (Tube K)} {n m : Nat} {a b : K} (h : VecOver x n a b) (hs : VecOver s m a b) {i : Nat} (him : i + m ≤ n) :
    ∃ y, put x i s = some y ∧ VecOver y n a b ∧ subvector y i (i + m - 1) = some s ∧
      ∀ f, InVector y f ↔ (InVector s fun k => f (i + k)) ∧ ∀ (k : Nat) (T : Tube K), (k < i ∨ i + m ≤ k) → x[k]? = some T → T.Encloses (f k) := by
  have hle : i + s.length ≤ x.length := by rw [h.size, hs.size]; exact him
  have hget := putLoop_get s i x hle
  rw [hs.size] at hget
  have hm := hs.pos
  have hv : VecOver (putLoop i s x) n a b := by
    refine vecOver_of (by rw [putLoop_length, h.size]) h.pos fun k T hT => ?_
    rw [hget] at hT
    split_ifs at hT
    · exact hs.get hT
    · exact h.get hT
  refine ⟨_, if_pos hle, hv, ?_, fun f => ⟨fun H => ⟨fun k T hT => ?_, fun k T hk hT => ?_⟩, fun ⟨H1, H2⟩ k T hT => ?_⟩⟩
  · unfold subvector
    rw [if_pos ⟨by rw [hv.size]; omega, by omega, by rw [hv.dom]; simp⟩, Option.some.injEq]
    apply List.ext_getElem?
    intro k
    rw [List.getElem?_take, List.getElem?_drop, hget]
    by_cases hk : k < m
    · rw [if_pos (by omega), if_pos (by omega), show i + k - i = k by omega]
    · rw [if_neg (by omega), List.getElem?_eq_none (by rw [hs.size]; omega)]
  · have hk : k < m := by rw [← hs.size]; exact (List.getElem?_eq_some_iff.mp hT).1
    refine H (i + k) T ?_
    rw [hget, if_pos (by omega), show i + k - i = k by omega]
    exact hT
  · refine H k T ?_
    rw [hget, if_neg (by omega)]
    exact hT
  · rw [hget] at hT
    split_ifs at hT with hk
    · have : T.Encloses (f (i + (k - i))) := H1 (k - i) T hT
      rwa [show i + (k - i) = k by omega] at this
    · exact H2 k T (by omega) hT

/-- **C144** fails without the hypothesis on the temporal domains: `put` accepts components on another temporal domain, and the vector has then no temporal domain (the
assertions of `tdomain()`, called by most of the functions, fail) -/
theorem C144_put_domain_fails : ∃ (x s y : List (Tube ℚ)), VecOver x 2 0 1 ∧ VecOver s 1 0 2 ∧ put x 0 s = some y ∧ tdomain y = none ∧ ∀ t, sampleT y t = none := by
  have hw : ∀ b : ℚ, 0 < b → (⟨0, b, Itv.icc 0 1, [⟨0, b, Itv.icc 0 1, Itv.icc 0 1⟩]⟩ : Tube ℚ).WF := fun b hb => ⟨by simp, ⟨rfl, hb, rfl⟩⟩
  have hd : tdomain [(⟨0, 2, Itv.icc 0 1, [⟨0, 2, Itv.icc 0 1, Itv.icc 0 1⟩]⟩ : Tube ℚ), ⟨0, 1, Itv.icc 0 1, [⟨0, 1, Itv.icc 0 1, Itv.icc 0 1⟩]⟩] = none := by decide +kernel
  refine ⟨[⟨0, 1, Itv.icc 0 1, [⟨0, 1, Itv.icc 0 1, Itv.icc 0 1⟩]⟩, ⟨0, 1, Itv.icc 0 1, [⟨0, 1, Itv.icc 0 1, Itv.icc 0 1⟩]⟩],
    [⟨0, 2, Itv.icc 0 1, [⟨0, 2, Itv.icc 0 1, Itv.icc 0 1⟩]⟩], _, ?_, ?_, rfl, hd, fun t => ?_⟩
  · exact ⟨rfl, by intro T hT; simp at hT; rw [hT]; exact hw 1 (by norm_num), by decide +kernel⟩
  · exact ⟨rfl, by intro T hT; simp at hT; rw [hT]; exact hw 2 (by norm_num), by decide +kernel⟩
  · unfold sampleT
    simp only [putLoop, List.set_cons_zero, hd]

/-- **C144**: `x.sample(t)` changes no function of `x`, and each component has then a gate at `t` -/
theorem C144_sample {x : List (Tube K)} {n : Nat} {a b : K} (h : VecOver x n a b) {t : K} (h1 : a ≤ t) (h2 : t ≤ b) :
    ∃ y, sampleT x t = some y ∧ VecOver y n a b ∧ (∀ f, InVector y f ↔ InVector x f) ∧ ∀ T ∈ y, T.gateExists t = some true := by
  have hm := vec_map h (g := fun T => T.sample t) (a' := a) (b' := b) (P := fun f f' => f' = f) fun T _ hw ha hb => by
    subst ha hb
    exact ⟨sample_wf hw h1 h2, rfl, rfl, fun f f' e => by subst e; exact C03_sample_same_trajectories hw h1 h2 _⟩
  refine ⟨x.map fun T => T.sample t, ?_, hm.1, fun f => hm.2 f f fun _ => rfl, fun T hT => ?_⟩
  · unfold sampleT; rw [h.dom]; exact if_pos ⟨h1, h2⟩
  · obtain ⟨X, hX, rfl⟩ := List.mem_map.mp hT
    obtain ⟨i, hi⟩ := List.mem_iff_getElem?.mp hX
    obtain ⟨w, rfl, rfl⟩ := h.get hi
    exact C03_sample_gate_exists w h1 h2

/-- **C144**: `x.sample(y)` with a tube changes no function of `x`; each component has then its slices cut at the bounds of the slices of `y`, and nowhere else -/
theorem C144_sample_tube {x : List (Tube K)} {n : Nat} {a b : K} (h : VecOver x n a b) {Y : Tube K} (hY : Y.WF) (ha : Y.t0 = a) (hb : Y.tf = b) :
    ∃ y, sampleLikeTube x Y = some y ∧ VecOver y n a b ∧ (∀ f, InVector y f ↔ InVector x f) ∧
      ∀ (i : Nat) (T T' : Tube K), x[i]? = some T → y[i]? = some T' → ∀ u, u ∈ T'.cells.map Cell.ub ↔ u ∈ T.cells.map Cell.ub ∨ u ∈ Y.cells.map Cell.ub := by
  have hm := vec_map h (g := fun T => T.sampleLike Y) (a' := a) (b' := b) (P := fun f f' => f' = f) fun T _ hw h0 hf => by
    obtain ⟨e1, e2, e3, e4, -⟩ := sampleLike_spec hw hY (h0.trans ha.symm) (hf.trans hb.symm)
    exact ⟨e1, e2.trans h0, e3.trans hf, fun f f' e => by subst e; exact e4 _⟩
  refine ⟨x.map fun T => T.sampleLike Y, by unfold sampleLikeTube; rw [h.dom, ha, hb, if_pos rfl], hm.1, fun f => hm.2 f f fun _ => rfl, fun i T T' hT hT' => ?_⟩
  rw [List.getElem?_map, hT, Option.map_some, Option.some.injEq] at hT'
  subst hT'
  obtain ⟨w, w0, wf⟩ := h.get hT
  exact (sampleLike_spec w hY (w0.trans ha.symm) (wf.trans hb.symm)).2.2.2.2.2

/-- **C144**: the same with a vector of tubes, component by component -/
theorem C144_sample_vector {x z : List (Tube K)} {n : Nat} {a b : K} (h : VecOver x n a b) (hz : VecOver z n a b) :
    ∃ y, sampleLikeVec x z = some y ∧ VecOver y n a b ∧ (∀ f, InVector y f ↔ InVector x f) ∧
      ∀ (i : Nat) (T Z T' : Tube K), x[i]? = some T → z[i]? = some Z → y[i]? = some T' → ∀ u, u ∈ T'.cells.map Cell.ub ↔ u ∈ T.cells.map Cell.ub ∨ u ∈ Z.cells.map Cell.ub := by
  have key : ∀ (i : Nat) (X Z : Tube K), x[i]? = some X → z[i]? = some Z → (X.sampleLike Z).WF ∧ (X.sampleLike Z).t0 = a ∧ (X.sampleLike Z).tf = b ∧
      (∀ f, (X.sampleLike Z).Encloses f ↔ X.Encloses f) ∧ ∀ u, u ∈ (X.sampleLike Z).cells.map Cell.ub ↔ u ∈ X.cells.map Cell.ub ∨ u ∈ Z.cells.map Cell.ub := by
    intro i X Z hX hZ
    obtain ⟨w, w0, wf⟩ := h.get hX
    obtain ⟨v, v0, vf⟩ := hz.get hZ
    obtain ⟨e1, e2, e3, e4, -, e6⟩ := sampleLike_spec w v (w0.trans v0.symm) (wf.trans vf.symm)
    exact ⟨e1, e2.trans w0, e3.trans wf, e4, e6⟩
  have other : ∀ (i : Nat) (X : Tube K), x[i]? = some X → ∃ Z, z[i]? = some Z := fun i X hX => by
    have hi : i < z.length := by rw [hz.size, ← h.size]; exact (List.getElem?_eq_some_iff.mp hX).1
    exact ⟨z[i], List.getElem?_eq_getElem hi⟩
  refine ⟨_, if_pos ⟨by rw [h.dom]; simp, h.dom.trans hz.dom.symm, h.size.trans hz.size.symm⟩, ?_, fun f => ⟨fun H i T hT => ?_, fun H i T hT => ?_⟩, fun i T Z T' hT hZ hT' => ?_⟩
  · refine vecOver_of (by rw [List.length_zipWith, h.size, hz.size, min_self]) h.pos fun i T hT => ?_
    obtain ⟨X, Z, hX, hZ, rfl⟩ := zipWith_get hT
    obtain ⟨e1, e2, e3, -⟩ := key i X Z hX hZ
    exact ⟨e1, e2, e3⟩
  · obtain ⟨Z, hZ⟩ := other i T hT
    exact ((key i T Z hT hZ).2.2.2.1 _).mp (H i _ (zipWith_get' _ hT hZ))
  · obtain ⟨X, Z, hX, hZ, rfl⟩ := zipWith_get hT
    exact ((key i X Z hX hZ).2.2.2.1 _).mpr (H i X hX)
  · rw [zipWith_get' _ hT hZ, Option.some.injEq] at hT'
    subst hT'
    exact (key i T Z hT hZ).2.2.2.2

/-- **C144**: after `x.set(y, [c,d])`, the values over `[c,d]` are in the box `y`; a function of `x` with these values is kept -/
theorem C144_set_interval {x : List (Tube K)} {n : Nat} {a b : K} (h : VecOver x n a b) (hg : ∀ T ∈ x, T.GatesInEnvelopes) {y : Box K} (hy : y.length = n) {c d : K}
    (h1 : a ≤ c) (h2 : c < d) (h3 : d ≤ b) :
    ∃ z, TuVec.setItv x y c d = some z ∧ z.length = n ∧
      (∀ f, InVector z f → ∀ (i : Nat) (Y : Itv K), y[i]? = some Y → ∀ t, c ≤ t → t ≤ d → f i t ∈ Y) ∧
      ∀ f, InVector x f → (∀ (i : Nat) (Y : Itv K), y[i]? = some Y → ∀ t, c ≤ t → t ≤ d → f i t ∈ Y) → InVector z f := by
  refine ⟨List.zipWith (fun T Y => T.setItv Y c d) x y, ?_, by rw [List.length_zipWith, h.size, hy, min_self], fun f H i Y hY => ?_, fun f H H' i T hT => ?_⟩
  · unfold TuVec.setItv
    rw [h.dom]
    exact if_pos ⟨by rw [h.size, hy], h1, h3⟩
  · have hi : i < x.length := by rw [h.size, ← hy]; exact (List.getElem?_eq_some_iff.mp hY).1
    have hX := List.getElem?_eq_getElem hi
    obtain ⟨w, w0, wf⟩ := h.get hX
    have := H i _ (zipWith_get' _ hX hY)
    exact ((C50_set_interval w (w0 ▸ h1) h2 (wf ▸ h3) Y (f i)).mp this).1
  · obtain ⟨X, Y, hX, hY, rfl⟩ := zipWith_get hT
    obtain ⟨w, w0, wf⟩ := h.get hX
    exact C50_set_interval_keeps w (hg X (List.mem_iff_getElem?.mpr ⟨i, hX⟩)) (w0 ▸ h1) h2 (wf ▸ h3) Y (H i X hX) (H' i Y hY)

end order

section field
variable {K : Type*} [Field K] [LinearOrder K] [IsStrictOrderedRing K]

/-- **C144**: `x.inflate(rad)` with a vector of non-negative numbers contains each function whose components are within `rad` of the ones of a function of `x` -/
theorem C144_inflate (A : IArith K) {x : List (Tube K)} {n : Nat} {a b : K} (h : VecOver x n a b) {rad : List K} (hn : rad.length = n) (h0 : ∀ r ∈ rad, 0 ≤ r) :
    ∃ y, TuVec.inflate A x rad = some y ∧ VecOver y n a b ∧
      ∀ f k : Nat → K → K, InVector x f → (∀ (i : Nat) (r : K), rad[i]? = some r → ∀ t, |k i t - f i t| ≤ r) → InVector y k := by
  refine ⟨_, if_pos ⟨by rw [h.size, hn], h0⟩, ?_, fun f k hf hk i T hT => ?_⟩
  · refine vecOver_of (by rw [List.length_zipWith, h.size, hn, min_self]) h.pos fun i T hT => ?_
    obtain ⟨X, r, hX, hr, rfl⟩ := zipWith_get hT
    obtain ⟨w, w0, wf⟩ := h.get hX
    exact ⟨mapWith_wf _ _ w, w0, wf⟩
  · obtain ⟨X, r, hX, hr, rfl⟩ := zipWith_get hT
    exact C09_inflate A (h.get hX).1 (hf i X hX) (hk i r hr)

/-- **C144**: the same number for all the components -/
theorem C144_inflate_number (A : IArith K) {x : List (Tube K)} {n : Nat} {a b : K} (h : VecOver x n a b) {r : K} (h0 : 0 ≤ r) :
    ∃ y, inflateNum A x r = some y ∧ VecOver y n a b ∧
      ∀ f k : Nat → K → K, InVector x f → (∀ i < n, ∀ t, |k i t - f i t| ≤ r) → InVector y k := by
  obtain ⟨y, e, v, H⟩ := C144_inflate A h (rad := List.replicate x.length r) (by rw [List.length_replicate, h.size]) (fun s hs => by rw [List.eq_of_mem_replicate hs]; exact h0)
  refine ⟨y, e, v, fun f k hf hk => H f k hf fun i s hs => ?_⟩
  have hi : i < n := by
    have := (List.getElem?_eq_some_iff.mp hs).1
    rwa [List.length_replicate, h.size] at this
  have e := List.eq_of_mem_replicate (List.mem_iff_getElem?.mpr ⟨i, hs⟩)
  rw [e]
  exact hk i hi

/-- **C144**: `x.inflate(rad)` with a vector of non-negative trajectories -/
theorem C144_inflate_trajectories (A : IArith K) {x : List (Tube K)} {n : Nat} {a b : K} (h : VecOver x n a b) {rad : List (Traj K)} (hn : rad.length = n)
    (hr : ∀ r ∈ rad, TrajOk r ∧ r.dom = Itv.icc a b ∧ ∀ v ∈ r.cod, 0 ≤ v) :
    ∃ y, inflateTrajs A x rad = some y ∧ VecOver y n a b ∧
      ∀ f k : Nat → K → K, InVector x f → (∀ (i : Nat) (r : Traj K), rad[i]? = some r → ∀ t, a ≤ t → t ≤ b → |k i t - f i t| ≤ r.fn t) → InVector y k := by
  have key : ∀ p ∈ x.zip rad, ∃ R, p.1.inflateTraj A p.2 = some R ∧ R.WF ∧ R.t0 = a ∧ R.tf = b ∧
      ∀ f k : K → K, p.1.Encloses f → (∀ t, a ≤ t → t ≤ b → |k t - f t| ≤ p.2.fn t) → R.Encloses k := by
    intro p hp
    obtain ⟨hp1, hp2⟩ := List.of_mem_zip hp
    obtain ⟨i, hi⟩ := List.mem_iff_getElem?.mp hp1
    obtain ⟨w, rfl, rfl⟩ := h.get hi
    obtain ⟨r1, r2, r3⟩ := hr _ hp2
    exact C143_inflate A w r1 r2 r3
  obtain ⟨y, hy⟩ := TVec.allM_total (f := fun p : Tube K × Traj K => p.1.inflateTraj A p.2) (l := x.zip rad) fun p hp => (key p hp).imp fun _ h => h.1
  have hg := TVec.allM_get hy
  have hl : (x.zip rad).length = n := by rw [List.length_zip, h.size, hn, min_self]
  have each : ∀ (i : Nat) (T : Tube K), y[i]? = some T → ∃ X r, x[i]? = some X ∧ rad[i]? = some r ∧ (X, r) ∈ x.zip rad ∧ X.inflateTraj A r = some T := by
    intro i T hT
    have hi : i < (x.zip rad).length := by rw [← hg.1]; exact (List.getElem?_eq_some_iff.mp hT).1
    have hz := List.getElem?_eq_getElem hi
    have hz' := hz
    rw [List.getElem?_zip_eq_some] at hz'
    refine ⟨_, _, hz'.1, hz'.2, List.mem_iff_getElem?.mpr ⟨i, hz⟩, ?_⟩
    obtain ⟨T', e1, e2⟩ := hg.2 i _ hz
    rw [e1, Option.some.injEq] at hT
    exact hT ▸ e2
  refine ⟨y, by unfold inflateTrajs; rw [if_pos (by rw [h.size, hn])]; exact hy, vecOver_of (by rw [hg.1, hl]) h.pos fun i T hT => ?_, fun f k hf hk i T hT => ?_⟩
  · obtain ⟨X, r, -, -, hm, e⟩ := each i T hT
    obtain ⟨R, e', w, w0, wf, -⟩ := key _ hm
    rw [e, Option.some.injEq] at e'
    exact e' ▸ ⟨w, w0, wf⟩
  · obtain ⟨X, r, hX, hr, hm, e⟩ := each i T hT
    obtain ⟨R, e', -, -, -, H⟩ := key _ hm
    rw [e, Option.some.injEq] at e'
    exact e' ▸ H _ _ (hf i X hX) (hk i r hr)

/-- **C144**: `x.shift_tdomain(d)` shifts the temporal domain and the functions -/
theorem C144_shift {x : List (Tube K)} {n : Nat} {a b : K} (h : VecOver x n a b) (d : K) :
    VecOver (TuVec.shift x d) n (a + d) (b + d) ∧ ∀ f : Nat → K → K, (InVector (TuVec.shift x d) fun i u => f i (u - d)) ↔ InVector x f := by
  have hm := vec_map h (g := fun T => T.shift d) (a' := a + d) (b' := b + d) (P := fun f f' => f' = fun u => f (u - d)) fun T _ hw ha hb => by
    subst ha hb
    exact ⟨(C11_shift hw d id).2.1, rfl, rfl, fun f f' e => by subst e; exact (C11_shift hw d f).1⟩
  exact ⟨hm.1, fun f => hm.2 f _ fun _ => rfl⟩

/-! ### The hypotheses are met -/

/-- a vector of two tubes of different slicings over `[0,4]` -/
theorem twoTubes_over : VecOver [Ex.T, U] 2 0 4 ∧ InVector [Ex.T, U] fun _ t => t := by
  refine ⟨⟨rfl, fun T hT => ?_, by decide +kernel⟩, fun i T hT => ?_⟩
  · simp at hT
    rcases hT with rfl | rfl
    · exact Ex.T_wf
    · exact U_wf
  · match i, hT with
    | 0, hT => simp at hT; subst hT; exact Ex.T_encl
    | 1, hT => simp at hT; subst hT; exact U_encl

example : ∃ y, subvector [Ex.T, U] 1 1 = some y ∧ InVector y fun _ t => t := by
  obtain ⟨y, e, -, -, h⟩ := C144_subvector twoTubes_over.1 (i := 1) (j := 1) le_rfl (by norm_num)
  exact ⟨y, e, h _ twoTubes_over.2⟩

example : (put [Ex.T, U] 0 [U]).map (fun y => y.map fun T => T.evalAt 4) = some [Ex.I 3 4, Ex.I 3 4] := by decide +kernel
example : (sampleT [Ex.T, U] (1 / 2)).map (fun y => y.map Tube.nbSlices) = some [Ex.T.nbSlices + 1, 3] := by decide +kernel
example : (inflateTrajs (IArith.exact ℚ) [Ex.T, U] [growRad, growRad]).map (fun y => y.map fun T => T.evalAt 4) = some [Itv.icc 0 9, Itv.icc (-1) 8] := by decide +kernel

example : ∃ y, inflateTrajs (IArith.exact ℚ) [Ex.T, U] [growRad, growRad] = some y ∧ InVector y fun _ t => t := by
  obtain ⟨y, e, -, h⟩ := C144_inflate_trajectories (IArith.exact ℚ) twoTubes_over.1 (rad := [growRad, growRad]) rfl (by
    intro r hr; simp at hr; subst hr; exact growRad_ok)
  refine ⟨y, e, h _ _ twoTubes_over.2 fun i r hr t _ _ => ?_⟩
  have hr' : r = growRad := by
    have := List.mem_iff_getElem?.mpr ⟨i, hr⟩
    simpa using this
  subst hr'
  rw [sub_self, abs_zero]
  unfold Traj.fn
  cases hv : growRad.evalAt t with
  | none => exact le_rfl
  | some v => exact growRad_ok.2.2 v (evalAt_mem_cod growRad_ok.1 hv)

end field

end Codac.Props
