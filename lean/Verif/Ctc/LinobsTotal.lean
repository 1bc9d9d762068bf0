import Verif.Ctc.Linobs
import Verif.Tube.Polygon

/-!
# `CtcLinobs` ends with a result, whatever the bounded domains, for a small enough threshold of the thick points
-/

set_option linter.unusedSectionVars false

namespace Codac.Lin
open Codac.Graham Codac.Poly

variable {K : Type*} [Field K] [LinearOrder K] [IsStrictOrderedRing K]

/-- bounded and not empty -/
def Bd (X : Itv K) : Prop := X.bounds?.isSome

theorem bd_icc {a b : K} (h : a ≤ b) : Bd (Itv.icc a b) := by
  rw [Itv.icc_eq_mk h]; rfl

theorem bd_point (a : K) : Bd (Itv.point a) := rfl

theorem bd_cases {X : Itv K} (h : Bd X) : ∃ a b, a ≤ b ∧ X = Itv.icc a b := by
  match X, h with
  | .mk (some a) (some b) hab, _ => exact ⟨a, b, hab, (Itv.icc_eq_mk hab).symm⟩

theorem bd_sup {X Y : Itv K} (hX : Bd X) (hY : Bd Y) : Bd (X ⊔ Y) := by
  match X, hX, Y, hY with
  | .mk (some a) (some b) hab, _, .mk (some c) (some d) hcd, _ => rfl

theorem bd_add {X Y : Itv K} (hX : Bd X) (hY : Bd Y) : Bd (Itv.add X Y) := by
  match X, hX, Y, hY with
  | .mk (some a) (some b) hab, _, .mk (some c) (some d) hcd, _ => exact bd_icc (a := a + c) (b := b + d) (add_le_add hab hcd)

theorem bd_neg {X : Itv K} (hX : Bd X) : Bd X.neg := by
  match X, hX with
  | .mk (some a) (some b) hab, _ => exact bd_icc (a := -b) (b := -a) (neg_le_neg hab)

theorem bd_mul {X Y : Itv K} (hX : Bd X) (hY : Bd Y) : Bd (Itv.mul X Y) := by
  match X, hX, Y, hY with
  | .mk (some a) (some b) hab, _, .mk (some c) (some d) hcd, _ =>
    exact bd_icc ((min_le_left _ _).trans ((min_le_left _ _).trans ((le_max_left _ _).trans (le_max_left _ _))))

theorem bd_ne {X : Itv K} (h : Bd X) : X.isEmpty = false := by
  match X, h with
  | .mk (some a) (some b) hab, _ => rfl

theorem tpt_bd {X Y : Itv K} (hX : Bd X) (hY : Bd Y) : tpt X Y = (X, Y) := by
  unfold tpt
  rw [bd_ne hX, bd_ne hY]
  rfl

/-- interval matrices of bounded entries -/
def BdM (M : IMat K) : Prop := (Bd M.1.1 ∧ Bd M.1.2) ∧ Bd M.2.1 ∧ Bd M.2.2

theorem bd_exp (E : K → Mat K) (s t : K) : BdM (expAt E s t) :=
  ⟨⟨bd_sup (bd_point _) (bd_point _), bd_sup (bd_point _) (bd_point _)⟩, bd_sup (bd_point _) (bd_point _), bd_sup (bd_point _) (bd_point _)⟩

theorem bd_forced {D : Itv K} {M : IMat K} {u : Itv K} (hD : Bd D) (hM : BdM M) (hu : Bd u) (b : K × K) : Bd (forced D M u b).1 ∧ Bd (forced D M u b).2 :=
  ⟨bd_add (bd_mul (bd_mul hD hM.1.1) (bd_mul hu (bd_point _))) (bd_mul (bd_mul hD hM.1.2) (bd_mul hu (bd_point _))),
    bd_add (bd_mul (bd_mul hD hM.2.1) (bd_mul hu (bd_point _))) (bd_mul (bd_mul hD hM.2.2) (bd_mul hu (bd_point _)))⟩

/-- the same result for every small enough threshold -/
def Ev {α : Type*} (f : K → Option α) : Prop := ∃ r e0, 0 < e0 ∧ ∀ e, 0 < e → e ≤ e0 → f e = some r

theorem ev_pure {α : Type*} (a : α) : Ev (K := K) fun _ => some a := ⟨a, 1, one_pos, fun _ _ _ => rfl⟩

theorem Ev.bind {α β : Type*} {f : K → Option α} {g : K → α → Option β} (hf : Ev f) (hg : ∀ a e, 0 < e → f e = some a → Ev fun e => g e a) :
    Ev fun e => (f e).bind (g e) := by
  obtain ⟨a, e0, h0, h⟩ := hf
  obtain ⟨r, e1, h1, h'⟩ := hg a e0 h0 (h e0 h0 le_rfl)
  refine ⟨r, min e0 e1, lt_min h0 h1, fun e he hle => ?_⟩
  beta_reduce
  rw [h e he (hle.trans (min_le_left _ _))]
  exact h' e he (hle.trans (min_le_right _ _))

theorem Ev.map {α β : Type*} {f : K → Option α} (hf : Ev f) (g : α → β) : Ev fun e => (f e).map g := by
  obtain ⟨a, e0, h0, h⟩ := hf
  exact ⟨g a, e0, h0, fun e he hle => by beta_reduce; rw [h e he hle]; rfl⟩

/-- a positive lower bound of the sizes that are not zero -/
theorem exists_threshold (l : List (TPt K)) : ∃ e0 : K, 0 < e0 ∧ ∀ X ∈ l, ∀ a b c d, X.1.bounds? = some (a, b) → X.2.bounds? = some (c, d) → (a = b ∧ c = d) ∨ e0 ≤ max (b - a) (d - c) := by
  induction l with
  | nil => exact ⟨1, one_pos, fun X h => by simp at h⟩
  | cons X l ih =>
    obtain ⟨e0, h0, h⟩ := ih
    by_cases hX : ∃ a b c d, X.1.bounds? = some (a, b) ∧ X.2.bounds? = some (c, d) ∧ ¬ (a = b ∧ c = d)
    · obtain ⟨a, b, c, d, h1, h2, hne⟩ := hX
      have k1 := bounds_le h1
      have k2 := bounds_le h2
      have hpos : 0 < max (b - a) (d - c) := by
        by_contra hc
        rw [not_lt, max_le_iff] at hc
        exact hne ⟨by linarith [hc.1], by linarith [hc.2]⟩
      refine ⟨min e0 (max (b - a) (d - c)), lt_min h0 hpos, fun Y hY a' b' c' d' g1 g2 => ?_⟩
      rcases List.mem_cons.mp hY with rfl | hY
      · rw [h1] at g1; rw [h2] at g2
        cases g1; cases g2
        exact Or.inr (min_le_right _ _)
      · exact (h Y hY a' b' c' d' g1 g2).imp_right fun h => (min_le_left _ _).trans h
    · push Not at hX
      refine ⟨e0, h0, fun Y hY a' b' c' d' g1 g2 => ?_⟩
      rcases List.mem_cons.mp hY with rfl | hY
      · exact Or.inl (hX a' b' c' d' g1 g2)
      · exact h Y hY a' b' c' d' g1 g2

/-- the corners of a thick point -/
def corners (X : TPt K) : List (Pt K) :=
  match X.1.bounds?, X.2.bounds? with
  | some (a, b), some (c, d) => if a = b ∧ c = d then [(a, c)] else removeIdentical [(a, c), (a, d), (b, c), (b, d)]
  | _, _ => []

theorem mkChecked_ev {l : List (TPt K)} (h : ∀ X ∈ l, Bd X.1 ∧ Bd X.2) : Ev fun e => mkChecked e l := by
  obtain ⟨e0, h0, hw⟩ := exists_threshold l
  refine ⟨convexHullPts (l.map corners).flatten, e0, h0, fun e he hle => ?_⟩
  beta_reduce
  unfold mkChecked
  rw [if_pos]
  · unfold ofThick
    rw [if_neg]
    · rw [mapM_some _ corners]
      · rfl
      · intro X hX
        obtain ⟨b1, b2⟩ := h X hX
        obtain ⟨⟨a, b⟩, h1⟩ := Option.isSome_iff_exists.mp b1
        obtain ⟨⟨c, d⟩, h2⟩ := Option.isSome_iff_exists.mp b2
        simp only [thickPts, corners, h1, h2]
        rcases hw X hX a b c d h1 h2 with ⟨rfl, rfl⟩ | hge
        · rw [if_pos (by simpa using he), ite_self, ite_self, if_pos ⟨rfl, rfl⟩]
        · rw [if_neg (not_lt.mpr (hle.trans hge)), if_neg]
          rintro ⟨rfl, rfl⟩
          simp only [sub_self, max_self] at hge
          linarith
    · rw [List.any_eq_true]
      rintro ⟨X, hX, hc⟩
      rw [bd_ne (h X hX).1, bd_ne (h X hX).2] at hc
      cases hc
  · rw [List.all_eq_true]
    intro X hX
    obtain ⟨b1, b2⟩ := h X hX
    obtain ⟨⟨a, b⟩, h1⟩ := Option.isSome_iff_exists.mp b1
    obtain ⟨⟨c, d⟩, h2⟩ := Option.isSome_iff_exists.mp b2
    rw [h1, h2]
    rcases hw X hX a b c d h1 h2 with ⟨rfl, rfl⟩ | hge
    · simp
    · simp [hle.trans hge]

theorem mulW_ev {M : IMat K} (hM : BdM M) (v : List (Pt K)) : Ev fun e => mulW (mkChecked e) M v := by
  refine mkChecked_ev fun X hX => ?_
  obtain ⟨p, -, rfl⟩ := List.mem_map.mp hX
  have k1 := bd_add (bd_mul hM.1.1 (bd_point p.1)) (bd_mul hM.1.2 (bd_point p.2))
  have k2 := bd_add (bd_mul hM.2.1 (bd_point p.1)) (bd_mul hM.2.2 (bd_point p.2))
  rw [tpt_bd k1 k2]
  exact ⟨k1, k2⟩

theorem addW_ev {X : TPt K} (hX : Bd X.1 ∧ Bd X.2) (v : List (Pt K)) : Ev fun e => addW (mkChecked e) v X := by
  refine mkChecked_ev fun Y hY => ?_
  obtain ⟨p, -, rfl⟩ := List.mem_map.mp hY
  have k1 := bd_add (bd_point p.1) hX.1
  have k2 := bd_add (bd_point p.2) hX.2
  rw [tpt_bd k1 k2]
  exact ⟨k1, k2⟩

theorem inter_ev {eps : K} (he : 0 < eps) {v ps : List (Pt K)} {p : Pt K} (hv : Good v p) (f : List (Pt K) → List (Pt K)) :
    Ev (K := K) fun _ => (inter eps v (convexHullPts ps)).map f := by
  obtain ⟨⟨σ, s0, s1⟩, s2, s3⟩ := hv
  obtain ⟨⟨τ, t0, t1⟩, t2, -⟩ := convexHullPts_poly ps
  obtain ⟨qs, h1, -, -⟩ := inter_spec he s0 t0 s1 s2 t1 t2
  rw [h1]
  exact ev_pure _

variable {P : Params K} {R : Itv K} {obs : List (K × TPt K)} {u : Tube K} {bs : List (K × K)} {tm : Nat → K} {x : K → Pt K}

/-- the parameters with the checked constructor of threshold `e` -/
def Params.at (P : Params K) (e : K) : Params K := { P with poly := mkChecked e }

theorem fwdGate_ev (he : 0 < P.eps) {pk q : List (Pt K)} {p : Pt K} (hp : Good pk p) (dt : K) {U : Itv K} (hU : Bd U) : Ev fun e => fwdGate (P.at e) pk q dt U := by
  refine (mulW_ev (bd_exp P.E dt dt) q).bind fun a _ _ _ => (addW_ev (bd_forced (bd_point dt) (bd_exp P.E 0 dt) hU P.b) a).bind fun r e _ hr => ?_
  obtain ⟨ps, rfl⟩ := ofThick_built (mkChecked_le hr)
  exact inter_ev he hp (simplify P.edges)

theorem bwdGate_ev (he : 0 < P.eps) {pk q : List (Pt K)} {p : Pt K} (hp : Good pk p) (dt : K) {U : Itv K} (hU : Bd U) : Ev fun e => bwdGate (P.at e) pk q dt U := by
  have hf := bd_forced (bd_point dt) (bd_exp P.F 0 dt) hU P.b
  refine (mulW_ev (bd_exp P.F dt dt) q).bind fun a _ _ _ => (addW_ev (X := (_, _)) ⟨bd_neg hf.1, bd_neg hf.2⟩ a).bind fun r e _ hr => ?_
  obtain ⟨ps, rfl⟩ := ofThick_built (mkChecked_le hr)
  exact inter_ev he hp (simplify P.edges)

theorem polyEnvelope_ev (pk : List (Pt K)) {dt : K} (h : 0 ≤ dt) {U : Itv K} (hU : Bd U) : Ev fun e => polyEnvelope (P.at e) pk dt U :=
  (mulW_ev (bd_exp P.E 0 dt) pk).bind fun a _ _ _ => addW_ev (bd_forced (bd_icc h) (bd_exp P.E 0 dt) hU P.b) a

theorem polyOf_some {X : TPt K} (h : Bd X.1 ∧ Bd X.2) : ∃ v, polyOf X = some v := by
  obtain ⟨⟨a, b⟩, h1⟩ := Option.isSome_iff_exists.mp h.1
  obtain ⟨⟨c, d⟩, h2⟩ := Option.isSome_iff_exists.mp h.2
  exact ⟨_, by unfold polyOf; rw [h1, h2]⟩

theorem obsLoop_ev {gate : K → List (Pt K) → List (Pt K) → K → Option (List (Pt K))} {b : K × K} {dt : K → K} {y : Pt K}
    (hev : ∀ p q d, Good p y → Ev fun e => gate e p q d)
    (hg : ∀ e, 0 < e → ∀ p q r t, b.1 ≤ t → t ≤ b.2 → gate e p q (dt t) = some r → Good p y → Good q (x t) → Good r y) :
    ∀ (obs : List (K × TPt K)) (p : List (Pt K)), ObsOk obs b x → (∀ o ∈ obs, Bd o.2.1 ∧ Bd o.2.2) → Good p y → Ev fun e => obsLoop (gate e) b dt obs p := by
  intro obs
  induction obs with
  | nil => intro p _ _ _; exact ev_pure p
  | cons o obs ih =>
    intro p ho hb hp
    obtain ⟨t, Y⟩ := o
    simp only [obsLoop]
    have ho' : ObsOk obs b x := fun o m => ho o (List.mem_cons_of_mem _ m)
    have hb' : ∀ o ∈ obs, Bd o.2.1 ∧ Bd o.2.2 := fun o m => hb o (List.mem_cons_of_mem _ m)
    by_cases ht : b.1 ≤ t ∧ t ≤ b.2
    · simp only [if_pos ht]
      obtain ⟨q, hq⟩ := polyOf_some (hb _ List.mem_cons_self)
      simp only [hq, Option.bind_some]
      refine (hev p q (dt t) hp).bind fun a e he ha => ih a ho' hb' ?_
      exact hg e he p q a t ht.1 ht.2 ha hp (polyOf_good hq (ho _ List.mem_cons_self ht.1 ht.2))
    · simp only [if_neg ht]
      exact ih p ho' hb' hp

/-- the domains are bounded -/
structure BdAll (obs : List (K × TPt K)) (u : Tube K) (bs : List (K × K)) : Prop where
  inp : ∀ (k : Nat) (b : K × K), bs[k]? = some b → Bd (u.codAt k)
  seen : ∀ o ∈ obs, Bd o.2.1 ∧ Bd o.2.2

theorem fwdStep_ev (hy : ∀ e, 0 < e → LHyp (P.at e) obs u bs tm x) (hB : BdAll obs u bs) {bwd : Bool} {k : Nat} {b : K × K} (hb : bs[k]? = some b) {σ : St K}
    (hi : LInv bs tm x σ) : Ev fun e => fwdStep (P.at e) R bwd obs u k b σ := by
  have hk : k < bs.length := (List.getElem?_eq_some_iff.mp hb).1
  have he := (hy 1 one_pos).ok.eps
  obtain ⟨e1, e2, hle⟩ := (hy 1 one_pos).time k b hb
  unfold fwdStep
  by_cases hR : (Itv.icc b.1 b.2).intersects R = true
  · simp only [if_pos hR]
    have hgood : Good (σ.ps.getD (k + 1) []) (x b.2) := by rw [e2]; exact hi.polys (k + 1) hk
    refine (fwdGate_ev (P := P) he hgood _ (hB.inp k b hb)).bind fun p0 e he' h0 => ?_
    have g0 : Good p0 (x b.2) := by
      obtain ⟨f, hf, ee⟩ := ((hy e he').flow k b hb).fwd b.1 b.2 le_rfl hle le_rfl
      refine fwdGate_good (hy e he').ok h0 (x := x b.1) ?_ hgood hf ee
      rw [e1]; exact hi.polys k hk.le
    refine (obsLoop_ev (x := x) (y := x b.2) (gate := fun e p q dt => fwdGate (P.at e) p q dt (u.codAt k)) (fun p q d hp => fwdGate_ev he hp d (hB.inp k b hb))
      ?_ obs p0 ((hy 1 one_pos).seen k b hb) hB.seen g0).bind fun p _ _ _ => ?_
    · intro e he' p q r t h1 h2 hr hpg hq
      obtain ⟨f, hf, ee⟩ := ((hy e he').flow k b hb).fwd t b.2 h1 h2 le_rfl
      exact fwdGate_good (hy e he').ok hr hq hpg hf ee
    · cases bwd with
      | true => exact ev_pure _
      | false => exact (polyEnvelope_ev (P := P) _ (sub_nonneg.mpr hle) (hB.inp k b hb)).map _
  · simp only [if_neg hR]
    exact ev_pure _

theorem bwdStep_ev (hy : ∀ e, 0 < e → LHyp (P.at e) obs u bs tm x) (hB : BdAll obs u bs) {k : Nat} {b : K × K} (hb : bs[k]? = some b) {σ : St K}
    (hi : LInv bs tm x σ) : Ev fun e => bwdStep (P.at e) R obs u k b σ := by
  have hk : k < bs.length := (List.getElem?_eq_some_iff.mp hb).1
  have he := (hy 1 one_pos).ok.eps
  obtain ⟨e1, e2, hle⟩ := (hy 1 one_pos).time k b hb
  unfold bwdStep
  by_cases hR : (Itv.icc b.1 b.2).intersects R = true
  · simp only [if_pos hR]
    have hgood : Good (σ.ps.getD k []) (x b.1) := by rw [e1]; exact hi.polys k hk.le
    refine (bwdGate_ev (P := P) he hgood _ (hB.inp k b hb)).bind fun p0 e he' h0 => ?_
    have g0 : Good p0 (x b.1) := by
      obtain ⟨f, hf, ee⟩ := ((hy e he').flow k b hb).bwd b.1 b.2 le_rfl hle le_rfl
      refine bwdGate_good (hy e he').ok h0 (x := x b.2) ?_ hgood hf ee
      rw [e2]; exact hi.polys (k + 1) hk
    refine (obsLoop_ev (x := x) (y := x b.1) (gate := fun e p q dt => bwdGate (P.at e) p q dt (u.codAt k)) (fun p q d hp => bwdGate_ev he hp d (hB.inp k b hb))
      ?_ obs p0 ((hy 1 one_pos).seen k b hb) hB.seen g0).bind fun p _ _ _ => ?_
    · intro e he' p q r t h1 h2 hr hpg hq
      obtain ⟨f, hf, ee⟩ := ((hy e he').flow k b hb).bwd b.1 t le_rfl h1 h2
      exact bwdGate_good (hy e he').ok hr hq hpg hf ee
    · exact (polyEnvelope_ev (P := P) _ (sub_nonneg.mpr hle) (hB.inp k b hb)).map _
  · simp only [if_neg hR]
    exact ev_pure _

theorem fwdLoop_ev (hy : ∀ e, 0 < e → LHyp (P.at e) obs u bs tm x) (hB : BdAll obs u bs) {bwd : Bool} : ∀ (bs' : List (K × K)) (k : Nat), bs.drop k = bs' → ∀ σ : St K,
    LInv bs tm x σ → Ev fun e => fwdLoop (P.at e) R bwd obs u k bs' σ := by
  intro bs'
  induction bs' with
  | nil => intro k _ σ _; exact ev_pure σ
  | cons b bs' ih =>
    intro k hk σ hi
    have hb : bs[k]? = some b := by
      have := congrArg (·[0]?) hk
      simpa [List.getElem?_drop] using this
    refine (fwdStep_ev (R := R) hy hB hb hi).bind fun σ1 e he h1 => ih (k + 1) ?_ σ1 (fwdStep_inv (hy e he) hb hi h1)
    rw [← List.drop_drop, hk]; rfl

theorem bwdLoop_ev (hy : ∀ e, 0 < e → LHyp (P.at e) obs u bs tm x) (hB : BdAll obs u bs) : ∀ (bs' : List (K × K)) (k : Nat), bs.drop k = bs' → ∀ σ : St K,
    LInv bs tm x σ → Ev fun e => bwdLoop (P.at e) R obs u k bs' σ := by
  intro bs'
  induction bs' with
  | nil => intro k _ σ _; exact ev_pure σ
  | cons b bs' ih =>
    intro k hk σ hi
    have hb : bs[k]? = some b := by
      have := congrArg (·[0]?) hk
      simpa [List.getElem?_drop] using this
    have hd : bs.drop (k + 1) = bs' := by rw [← List.drop_drop, hk]; rfl
    exact (ih (k + 1) hd σ hi).bind fun σ1 e he h1 => bwdStep_ev hy hB hb (bwdLoop_inv (hy e he) bs' (k + 1) hd σ σ1 hi h1)

theorem mapM_isSome {α β : Type*} (f : α → Option β) (l : List α) (h : ∀ a ∈ l, ∃ b, f a = some b) : ∃ r, l.mapM f = some r := by
  induction l with
  | nil => exact ⟨[], rfl⟩
  | cons a l ih =>
    obtain ⟨b, hb⟩ := h a (by simp)
    obtain ⟨r, hr⟩ := ih fun c hc => h c (by simp [hc])
    exact ⟨b :: r, by rw [List.mapM_cons, hb, hr]; rfl⟩

/-- the gates of a tube that encloses a trajectory are not empty -/
theorem gates_mem {T : Tube K} {f : K → K} (h : StInv bs T f) : (∃ t, f t ∈ T.g0) ∧ ∀ c ∈ T.cells, ∃ t, f t ∈ c.out := by
  have key : ∀ (cs : List (Cell K)) (g : Itv K), (∀ s ∈ slicesFrom g cs, s.Encloses f) → ∀ c ∈ cs, ∃ t, f t ∈ c.out := by
    intro cs
    induction cs with
    | nil => intro g _ c hc; simp at hc
    | cons d cs ih =>
      intro g hs c hc
      rw [slicesFrom_cons] at hs
      rcases List.mem_cons.mp hc with rfl | hc
      · exact ⟨_, (hs _ List.mem_cons_self).2.1⟩
      · exact ih _ (fun s m => hs s (List.mem_cons_of_mem _ m)) c hc
  refine ⟨?_, key T.cells T.g0 h.encl⟩
  obtain ⟨c, cs, hc⟩ := List.exists_cons_of_ne_nil h.wf.ne
  have h0 := h.encl
  unfold Tube.Encloses Tube.slices at h0
  rw [hc, slicesFrom_cons] at h0
  exact ⟨_, (h0 _ List.mem_cons_self).1⟩

theorem bd_of_mem {X C : Itv K} (hC : Bd C) {a : K} (h : a ∈ X ⊓ C) : Bd (X ⊓ C) :=
  Itv.bounds?_of_le inf_le_right (Itv.ne_bot_of_mem h) hC

theorem gates_bd {T : Tube K} {f : K → K} {C : Itv K} (hC : Bd C) (h : StInv bs (T.map (· ⊓ C)) f) :
    Bd (T.map (· ⊓ C)).g0 ∧ ∀ c ∈ (T.map (· ⊓ C)).cells, Bd c.out := by
  obtain ⟨⟨t, ht⟩, h2⟩ := gates_mem h
  refine ⟨?_, fun c hc => ?_⟩
  · obtain ⟨c, cs, hcs⟩ : ∃ c cs, T.cells = c :: cs := by
      refine List.exists_cons_of_ne_nil fun e => h.wf.ne ?_
      simp [Tube.map, Tube.mapWith, e]
    have e : (T.map (· ⊓ C)).g0 = T.g0 ⊓ C := by simp [Tube.map, Tube.mapWith, hcs]
    rw [e] at ht ⊢
    exact bd_of_mem hC ht
  · obtain ⟨t, ht⟩ := h2 c hc
    obtain ⟨d, -, rfl⟩ : ∃ d ∈ T.cells, (⟨d.lb, d.ub, d.cod ⊓ C, d.out ⊓ C⟩ : Cell K) = c := by
      have : c ∈ T.cells.map fun d => (⟨d.lb, d.ub, d.cod ⊓ C, d.out ⊓ C⟩ : Cell K) := hc
      exact List.mem_map.mp this
    exact bd_of_mem hC ht

theorem gatePolys_some {x1 x2 : Tube K} (h1 : Bd x1.g0 ∧ ∀ c ∈ x1.cells, Bd c.out) (h2 : Bd x2.g0 ∧ ∀ c ∈ x2.cells, Bd c.out) : ∃ ps, gatePolys x1 x2 = some ps := by
  obtain ⟨p, hp⟩ := polyOf_some (X := (x1.g0, x2.g0)) ⟨h1.1, h2.1⟩
  obtain ⟨r, hr⟩ := mapM_isSome polyOf ((x1.cells.map Cell.out).zip (x2.cells.map Cell.out)) (by
    rintro ⟨A, B⟩ hm
    obtain ⟨c, hc, e1⟩ := List.mem_map.mp (List.of_mem_zip hm).1
    obtain ⟨d, hd, e2⟩ := List.mem_map.mp (List.of_mem_zip hm).2
    exact polyOf_some ⟨by rw [← e1]; exact h1.2 c hc, by rw [← e2]; exact h2.2 d hd⟩)
  exact ⟨p :: r, by unfold gatePolys; rw [hp, Option.bind_some, hr]; rfl⟩

/-- the contractor ends with a result for every small enough threshold -/
theorem linobs_ev (hy : ∀ e, 0 < e → LHyp (P.at e) obs u bs tm x) (hB : BdAll obs u bs) (hbs : u.slices.map (fun s => (s.lb, s.ub)) = bs) (hn : bs ≠ []) {C : Itv K}
    (hCb : Bd C) {fwd bwd : Bool} {x1 x2 : Tube K} (h1 : StInv bs x1 fun t => (x t).1) (h2 : StInv bs x2 fun t => (x t).2)
    (hC : ∀ t, x1.t0 ≤ t → t ≤ x1.tf → (x t).1 ∈ C) (hC' : ∀ t, x2.t0 ≤ t → t ≤ x2.tf → (x t).2 ∈ C) (s1 : x1.sameSlicing u = true) (s2 : x2.sameSlicing u = true) :
    Ev fun e => linobs (P.at e) R C fwd bwd obs x1 x2 u := by
  have i1 := stInv_inter h1 hC
  have i2 := stInv_inter h2 hC'
  obtain ⟨ps, hps⟩ := gatePolys_some (gates_bd hCb i1) (gates_bd hCb i2)
  have hi : LInv bs tm x ⟨ps, x1.map (· ⊓ C), x2.map (· ⊓ C)⟩ := ⟨i1, i2, gatePolys_good hps hn i1 i2 (hy 1 one_pos).time⟩
  unfold linobs
  simp only [if_pos (And.intro s1 s2), hbs, hps, Option.bind_some]
  refine Ev.bind ?_ fun σ e he h => ?_
  · cases fwd with
    | true => exact fwdLoop_ev hy hB bs 0 rfl _ hi
    | false => exact ev_pure _
  · have hi1 : LInv bs tm x σ := by
      cases fwd with
      | true => exact fwdLoop_inv (hy e he) bs 0 rfl _ _ hi h
      | false => exact Option.some.inj h ▸ hi
    cases bwd with
    | true => exact bwdLoop_ev hy hB bs 0 rfl _ hi1
    | false => exact ev_pure _

end Codac.Lin
