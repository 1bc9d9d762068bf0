import Verif.Paving.TPlaneSummary
import Verif.Props.TPlaneProof
import Verif.Paving.SepPavingProofs
import Mathlib.Tactic.Linarith
import Mathlib.Tactic.FieldSimp

/-!
# C117: the summary of the loops of a t-plane
-/

set_option linter.unusedSectionVars false

namespace Codac.Props
open Codac Codac.Paving Codac.Summary

variable {K : Type*} [Field K] [LinearOrder K] [IsStrictOrderedRing K]

/-- `t` is one of the two times of a pair of the box of one of the loops -/
def InLoop (R : List (Box K)) (t : K) : Prop := ∃ I ∈ projections R, t ∈ I

/-- some time of a loop is at a distance smaller than `d` from `t` -/
def NearLoop (R : List (Box K)) (d t : K) : Prop := ∃ u, InLoop R u ∧ u - t < d ∧ t - u < d

/-- the boxes of the loops are parts of `[a,b] × [a,b]`, not empty -/
def LoopsIn (a b : K) (R : List (Box K)) : Prop := ∀ B ∈ R, BoxLe B [Itv.icc a b, .icc a b] ∧ ∃ v, InBox v B

/-- the samples: `a`, `a + dt`, ... and `b` -/
def IsSample (a b dt s : K) : Prop := s = b ∨ (s < b ∧ ∃ k : Nat, s = a + k * dt)

theorem loopsIn_proj {a b : K} (hab : a ≤ b) {R : List (Box K)} (h : LoopsIn a b R) {I : Itv K} (hI : I ∈ projections R) :
    ∃ lo hi, lo ≤ hi ∧ I = Itv.icc lo hi ∧ a ≤ lo ∧ hi ≤ b := by
  obtain ⟨B, hB, hI⟩ := List.mem_flatMap.1 hI
  obtain ⟨h1, v, h2⟩ := h B hB
  have key : ∀ {J : Itv K} {w : K}, J ≤ Itv.icc a b → w ∈ J → ∃ lo hi, lo ≤ hi ∧ J = Itv.icc lo hi ∧ a ≤ lo ∧ hi ≤ b := by
    intro J w hJ hw
    have hu : J.isUnbounded = false := (Itv.width_mono hJ (by rw [Itv.icc_eq_mk hab]; rfl)).2
    obtain ⟨lo, hi, hl, rfl⟩ := Itv.bounds_of_bounded (Itv.isEmpty_false_iff.mpr (Itv.ne_bot_of_mem hw)) hu
    refine ⟨lo, hi, hl, (Itv.icc_eq_mk hl).symm, ?_, ?_⟩
    · exact (Itv.mem_icc.1 (Itv.mem_of_le hJ (x := lo) ⟨le_refl lo, hl⟩)).1
    · exact (Itv.mem_icc.1 (Itv.mem_of_le hJ (x := hi) ⟨hl, le_refl hi⟩)).2
  cases h1 with
  | cons j1 h1 =>
  cases h1 with
  | cons j2 h1 =>
  cases h1
  cases h2 with
  | cons w1 h2 =>
  cases h2 with
  | cons w2 h2 =>
  rcases List.mem_cons.1 hI with rfl | hI
  · exact key j1 w1
  · rcases List.mem_cons.1 hI with rfl | hI
    · exact key j2 w2
    · cases hI

theorem start_spec {a b : K} (hab : a ≤ b) : TrajOk ((Traj.empty.set 0 a).set (0 : K) b) ∧ ((Traj.empty.set 0 a).set (0 : K) b).dom = Itv.icc a b ∧
    (∀ p ∈ ((Traj.empty.set 0 a).set (0 : K) b).pts, p.2 = 0) ∧
    ∀ k, k ∈ ((Traj.empty.set 0 a).set (0 : K) b).pts.map Prod.fst ↔ k = a ∨ k = b := by
  have h0 := (trajOk_empty (K := K)).set 0 a
  have h1 := h0.set 0 b
  have hp : ∀ p, p ∈ ((Traj.empty.set 0 a).set (0 : K) b).pts ↔ p = (a, 0) ∨ p = (b, 0) := by
    intro p
    rw [set_pts, mem_setPt h0.sorted, set_pts, mem_setPt trajOk_empty.sorted]
    constructor
    · rintro (h | ⟨h | h, _⟩)
      · exact .inr h
      · exact .inl h
      · simp [Traj.empty] at h
    · rintro (rfl | rfl)
      · by_cases e : a = b
        · subst e; exact .inl rfl
        · exact .inr ⟨.inl rfl, e⟩
      · exact .inl rfl
  have hk : ∀ k, k ∈ ((Traj.empty.set 0 a).set (0 : K) b).pts.map Prod.fst ↔ k = a ∨ k = b := by
    intro k
    rw [List.mem_map]
    constructor
    · rintro ⟨p, h2, rfl⟩
      rcases (hp p).1 h2 with rfl | rfl
      · exact .inl rfl
      · exact .inr rfl
    · rintro (rfl | rfl)
      · exact ⟨_, (hp _).2 (.inl rfl), rfl⟩
      · exact ⟨_, (hp _).2 (.inr rfl), rfl⟩
  refine ⟨h1, ?_, ?_, hk⟩
  · refine h1.dom.unique ⟨fun k h => ?_, fun Y hY => (icc_le_iff hab).2 ⟨hY a ((hk a).2 (.inl rfl)), hY b ((hk b).2 (.inr rfl))⟩⟩
    rw [Itv.mem_icc]
    rcases (hk k).1 h with rfl | rfl
    · exact ⟨le_rfl, hab⟩
    · exact ⟨hab, le_rfl⟩
  · intro p h
    rcases (hp p).1 h with rfl | rfl <;> rfl

/-- what the code computes, sample by sample -/
theorem summary_spec [Archimedean K] {a b dt : K} (hab : a ≤ b) (hdt : 0 < dt) {detected proven : List (Box K)} (hd : LoopsIn a b detected)
    (hp : LoopsIn a b proven) : ∃ x n ts, (∀ fuel ≥ n, summary fuel a b dt detected proven = some x) ∧ TrajOk x ∧ x.pts.map Prod.fst = ts ∧
      (∀ s, s ∈ ts ↔ s = a ∨ IsSample a b dt s) ∧
      ∀ s v, (s, v) ∈ x.pts → ((∃ lo hi, lo ≤ hi ∧ Itv.icc lo hi ∈ projections proven ∧ Marked ts lo hi s) ∧ v = 2) ∨
        ((¬ ∃ lo hi, lo ≤ hi ∧ Itv.icc lo hi ∈ projections proven ∧ Marked ts lo hi s) ∧
          (((∃ lo hi, lo ≤ hi ∧ Itv.icc lo hi ∈ projections detected ∧ Marked ts lo hi s) ∧ v = 1) ∨
            (¬ (∃ lo hi, lo ≤ hi ∧ Itv.icc lo hi ∈ projections detected ∧ Marked ts lo hi s) ∧ v = 0))) := by
  obtain ⟨g1, g2, g3, g4⟩ := start_spec (K := K) hab
  obtain ⟨x0, n, h1, h2⟩ := sample_total g1 g2 hab hdt
  obtain ⟨m, h3, h4⟩ := sample_sameFun g1 (h1 n le_rfl)
  have hok : TrajOk x0 := by rw [h4]; exact (trajOk_of_sameFun g1 h3).1
  have hzero : ∀ s v, (s, v) ∈ x0.pts → v = 0 := by
    intro s v h
    have e : ev s x0.pts = some v := (ev_iff hok.sorted).2 (.inl h)
    have e' : ev s ((Traj.empty.set 0 a).set (0 : K) b).pts = some v := by
      rw [← h3.same s]; rw [h4] at e; exact e
    have := ((ev_iff g1.sorted).1 e').mem_hull g1.sorted (X := Itv.point 0) (fun p hp => by rw [g3 p hp]; exact Itv.mem_point.2 rfl)
    exact Itv.mem_point.1 this
  have hkeys : ∀ s, s ∈ x0.pts.map Prod.fst ↔ s = a ∨ IsSample a b dt s := by
    intro s
    rw [h2, g4]
    unfold IsSample
    tauto
  have hbk : b ∈ x0.pts.map Prod.fst := (hkeys b).2 (.inr (.inl rfl))
  have hproj : ∀ {R : List (Box K)}, LoopsIn a b R → ∀ I ∈ projections R, ∃ lo hi, lo ≤ hi ∧ I = Itv.icc lo hi ∧ ∃ s ∈ x0.pts.map Prod.fst, lo ≤ s := by
    intro R hR I hI
    obtain ⟨lo, hi, k1, k2, k3, k4⟩ := loopsIn_proj hab hR hI
    exact ⟨lo, hi, k1, k2, b, hbk, k1.trans k4⟩
  obtain ⟨x1, e1, e2, e3, e4⟩ := markAll_spec (y := 1) hok rfl (hproj hd)
  obtain ⟨x2, f1, f2, f3, f4⟩ := markAll_spec (y := 2) e2 e3 (hproj hp)
  refine ⟨x2, n, x0.pts.map Prod.fst, fun fuel hf => ?_, f2, f3, hkeys, fun s v h => ?_⟩
  · unfold summary
    rw [h1 fuel hf, Option.bind_some, e1, Option.bind_some, f1]
  · rcases (f4 s v).1 h with h | ⟨h5, h6⟩
    · exact .inl h
    · refine .inr ⟨h5, ?_⟩
      rcases (e4 s v).1 h6 with h | ⟨h7, h8⟩
      · exact .inl h
      · exact .inr ⟨h7, hzero s v h8⟩

/-- a value between two values, strictly between the instants -/
theorem between_values {p q : K × K} {t v : K} (h1 : p.1 < t) (h2 : t < q.1) (h : (v - p.2) * (q.1 - p.1) = (t - p.1) * (q.2 - p.2)) :
    ∃ c, 0 < c ∧ c < 1 ∧ v = (1 - c) * p.2 + c * q.2 := by
  have hd : 0 < q.1 - p.1 := by linarith
  refine ⟨(t - p.1) / (q.1 - p.1), div_pos (by linarith) hd, (div_lt_one hd).2 (by linarith), ?_⟩
  have : v - p.2 = (t - p.1) * (q.2 - p.2) / (q.1 - p.1) := by rw [eq_div_iff hd.ne']; exact h
  have h' : v = p.2 + (t - p.1) * (q.2 - p.2) / (q.1 - p.1) := by linarith
  rw [h']
  field_simp
  ring

theorem adjacent {l l1 l2 : List (K × K)} {p q : K × K} (hs : SortedPts l) (e : l = l1 ++ p :: q :: l2) {s : K} (hk : s ∈ l.map Prod.fst) (h : p.1 < s) :
    q.1 ≤ s := by
  obtain ⟨r, hr, rfl⟩ := List.mem_map.1 hk
  subst e
  unfold SortedPts at hs
  rcases List.mem_append.1 hr with hr | hr
  · exact absurd ((List.pairwise_append.1 hs).2.2 r hr p (by simp)) (not_lt.2 h.le)
  · rcases List.mem_cons.1 hr with rfl | hr
    · exact absurd h (lt_irrefl _)
    · rcases List.mem_cons.1 hr with rfl | hr
      · exact le_rfl
      · exact ((List.pairwise_cons.1 (List.pairwise_cons.1 (List.pairwise_append.1 hs).2.1).2).1 r hr).le

/-- C117: for a plane on `[a,b] × [a,b]`, any positive precision and any detected and proven loops, proven loops being detected ones,
`traj_loops_summary()` returns a trajectory on `[a,b]` with values in `[0,2]` such that: it is positive at both times of every pair of the box of a detected
loop; it is not smaller than 1 (than 2 for a proven loop) as long as some sample of the loop is not passed; where it is positive, a detected loop is closer
than two precisions; where it is larger than 1, a proven loop is closer than two precisions. -/
theorem C117_summary [Archimedean K] {a b dt : K} (hab : a ≤ b) (hdt : 0 < dt) {detected proven : List (Box K)} (hd : LoopsIn a b detected)
    (hsub : proven ⊆ detected) : ∃ x n, (∀ fuel ≥ n, summary fuel a b dt detected proven = some x) ∧ x.dom = Itv.icc a b ∧
      ∀ t, a ≤ t → t ≤ b → ∃ v, x.evalAt t = some v ∧ 0 ≤ v ∧ v ≤ 2 ∧ (InLoop detected t → 0 < v) ∧
        (∀ I ∈ projections detected, t ∈ I → ∀ s ∈ I, IsSample a b dt s → t ≤ s → 1 ≤ v) ∧
        (∀ I ∈ projections proven, t ∈ I → ∀ s ∈ I, IsSample a b dt s → t ≤ s → v = 2) ∧
        (0 < v → NearLoop detected (2 * dt) t) ∧ (1 < v → NearLoop proven (2 * dt) t) := by
  have hp : LoopsIn a b proven := fun B hB => hd B (hsub hB)
  obtain ⟨x, n, ts, h1, hok, hts, hkey, hval⟩ := summary_spec hab hdt hd hp
  have hak : a ∈ ts := (hkey a).2 (.inl rfl)
  have hbk : b ∈ ts := (hkey b).2 (.inr (.inl rfl))
  have hkb : ∀ s ∈ ts, a ≤ s ∧ s ≤ b := by
    intro s hs
    rcases (hkey s).1 hs with rfl | rfl | ⟨h2, k, rfl⟩
    · exact ⟨le_rfl, hab⟩
    · exact ⟨hab, le_rfl⟩
    · exact ⟨by have : (0 : K) ≤ k * dt := mul_nonneg (Nat.cast_nonneg k) hdt.le
                linarith, h2.le⟩
  -- the next sample
  have hnext : ∀ s ∈ ts, s < b → ∃ s' ∈ ts, s < s' ∧ s' ≤ s + dt := by
    intro s hs hsb
    have hform : ∃ k : Nat, s = a + k * dt := by
      rcases (hkey s).1 hs with rfl | rfl | ⟨_, hk⟩
      · exact ⟨0, by simp⟩
      · exact absurd hsb (lt_irrefl _)
      · exact hk
    obtain ⟨k, hk⟩ := hform
    by_cases hc : s + dt < b
    · exact ⟨s + dt, (hkey _).2 (.inr (.inr ⟨hc, k + 1, by rw [hk]; push_cast; ring⟩)), by linarith, le_rfl⟩
    · exact ⟨b, hbk, hsb, not_lt.1 hc⟩
  have hpd : ∀ {I : Itv K}, I ∈ projections proven → I ∈ projections detected := by
    intro I hI
    obtain ⟨B, hB, hI⟩ := List.mem_flatMap.1 hI
    exact List.mem_flatMap.2 ⟨B, hsub hB, hI⟩
  set D : K → Prop := fun s => ∃ lo hi, lo ≤ hi ∧ Itv.icc lo hi ∈ projections detected ∧ Marked ts lo hi s with hD
  set Q : K → Prop := fun s => ∃ lo hi, lo ≤ hi ∧ Itv.icc lo hi ∈ projections proven ∧ Marked ts lo hi s with hQ
  have hQD : ∀ s, Q s → D s := fun s ⟨lo, hi, k1, k2, k3⟩ => ⟨lo, hi, k1, hpd k2, k3⟩
  -- the values of the samples
  have vpos : ∀ s v, (s, v) ∈ x.pts → 0 ≤ v ∧ v ≤ 2 ∧ (D s → 1 ≤ v) ∧ (Q s → v = 2) ∧ (0 < v → D s) ∧ (1 < v → Q s) := by
    intro s v h
    rcases hval s v h with ⟨h2, rfl⟩ | ⟨h2, ⟨h3, rfl⟩ | ⟨h3, rfl⟩⟩
    · exact ⟨by norm_num, le_rfl, fun _ => by norm_num, fun _ => rfl, fun _ => hQD s h2, fun _ => h2⟩
    · exact ⟨by norm_num, by norm_num, fun _ => le_rfl, fun h => absurd h h2, fun _ => h3, fun h => absurd h (lt_irrefl _)⟩
    · exact ⟨le_rfl, by norm_num, fun h => absurd h h3, fun h => absurd h h2, fun h => absurd h (lt_irrefl _), fun h => absurd h (by norm_num)⟩
  -- a marked sample is close to its loop
  have close : ∀ (R : List (Box K)), LoopsIn a b R → ∀ s, (∃ lo hi, lo ≤ hi ∧ Itv.icc lo hi ∈ projections R ∧ Marked ts lo hi s) →
      ∀ t, s - t < dt → t - s < dt → NearLoop R (2 * dt) t := by
    rintro R hR s ⟨lo, hi, k1, k2, k3, k4, k5⟩ t ht1 ht2
    by_cases hs : lo ≤ s
    · exact ⟨s, ⟨_, k2, Itv.mem_icc.2 ⟨hs, k4⟩⟩, by linarith, by linarith⟩
    · push Not at hs
      have k6 : ∀ s' ∈ ts, s < s' → lo < s' := k5.resolve_left (not_le.2 hs)
      obtain ⟨lo', hi', j1, j2, j3, j4⟩ := loopsIn_proj hab hR k2
      rw [Itv.icc_eq_mk k1, Itv.icc_eq_mk j1] at j2
      injection j2 with j2 j5
      injection j2 with j2
      injection j5 with j5
      obtain ⟨s', m1, m2, m3⟩ := hnext s k3 (by rw [← j5] at j4; linarith)
      have m4 := k6 s' m1 m2
      exact ⟨lo, ⟨_, k2, Itv.mem_icc.2 ⟨le_rfl, k1⟩⟩, by linarith, by linarith⟩
  refine ⟨x, n, h1, ?_, fun t hat htb => ?_⟩
  · refine hok.dom.unique ⟨fun k h => ?_, fun Y hY => (icc_le_iff hab).2 ⟨hY a (hts ▸ hak), hY b (hts ▸ hbk)⟩⟩
    rw [hts] at h
    exact Itv.mem_icc.2 (hkb k h)
  · have htd : t ∈ x.dom := by
      obtain ⟨_, hak', _⟩ := List.mem_map.1 (hts ▸ hak)
      have j1 : a ∈ x.dom := hok.dom.1 a (hts ▸ hak)
      have j2 : b ∈ x.dom := hok.dom.1 b (hts ▸ hbk)
      exact Itv.mem_of_le ((icc_le_iff hab).2 ⟨j1, j2⟩) (Itv.mem_icc.2 ⟨hat, htb⟩)
    obtain ⟨v, hv⟩ := evalAt_some hok htd
    refine ⟨v, hv, ?_⟩
    rcases (evalAt_iff hok).1 hv with hm | ⟨l1, p, q, l2, hl, k1, k2, k3⟩
    · -- a sample
      obtain ⟨u1, u2, u3, u4, u5, u6⟩ := vpos t v hm
      have htk : t ∈ ts := by rw [← hts]; exact List.mem_map_of_mem (f := Prod.fst) hm
      have mk : ∀ {R : List (Box K)}, LoopsIn a b R → ∀ I ∈ projections R, t ∈ I → ∃ lo hi, lo ≤ hi ∧ Itv.icc lo hi ∈ projections R ∧ Marked ts lo hi t := by
        intro R hR I hI hti
        obtain ⟨lo, hi, j1, rfl, _⟩ := loopsIn_proj hab hR hI
        obtain ⟨j2, j3⟩ := Itv.mem_icc.1 hti
        exact ⟨lo, hi, j1, hI, htk, j3, .inl j2⟩
      exact ⟨u1, u2, fun ⟨I, hI, hti⟩ => lt_of_lt_of_le one_pos (u3 (mk hd I hI hti)), fun I hI hti _ _ _ _ => u3 (mk hd I hI hti),
        fun I hI hti _ _ _ _ => u4 (mk hp I hI hti), fun h => close _ hd t (u5 h) t (by linarith) (by linarith),
        fun h => close _ hp t (u6 h) t (by linarith) (by linarith)⟩
    · -- between two samples
      have hpm : p ∈ x.pts := by rw [hl]; simp
      have hqm : q ∈ x.pts := by rw [hl]; simp
      obtain ⟨u1, u2, u3, u4, u5, u6⟩ := vpos p.1 p.2 hpm
      obtain ⟨w1, w2, w3, w4, w5, w6⟩ := vpos q.1 q.2 hqm
      obtain ⟨c, c0, c1, rfl⟩ := between_values k1 k2 k3
      have hpk : p.1 ∈ ts := by rw [← hts]; exact List.mem_map_of_mem hpm
      have hqk : q.1 ∈ ts := by rw [← hts]; exact List.mem_map_of_mem hqm
      have hadj : ∀ s ∈ ts, p.1 < s → q.1 ≤ s := fun s hs h => adjacent hok.sorted hl (by rw [hts]; exact hs) h
      have hgap : q.1 - p.1 ≤ dt := by
        obtain ⟨s', m1, m2, m3⟩ := hnext p.1 hpk (lt_of_lt_of_le (k1.trans k2) (hkb _ hqk).2)
        have := hadj s' m1 m2
        linarith
      -- the sample before a time of a loop is marked, the next one too when the loop has a sample afterwards
      have mkp : ∀ {R : List (Box K)}, LoopsIn a b R → ∀ I ∈ projections R, t ∈ I → ∃ lo hi, lo ≤ hi ∧ Itv.icc lo hi ∈ projections R ∧ Marked ts lo hi p.1 := by
        intro R hR I hI hti
        obtain ⟨lo, hi, j1, rfl, _⟩ := loopsIn_proj hab hR hI
        obtain ⟨j2, j3⟩ := Itv.mem_icc.1 hti
        exact ⟨lo, hi, j1, hI, hpk, k1.le.trans j3, .inr fun s' hs' h => lt_of_le_of_lt j2 (lt_of_lt_of_le k2 (hadj s' hs' h))⟩
      have mkq : ∀ {R : List (Box K)}, LoopsIn a b R → ∀ I ∈ projections R, t ∈ I → ∀ s ∈ I, IsSample a b dt s → t ≤ s →
          ∃ lo hi, lo ≤ hi ∧ Itv.icc lo hi ∈ projections R ∧ Marked ts lo hi q.1 := by
        intro R hR I hI hti s hsI hs hts
        obtain ⟨lo, hi, j1, rfl, _⟩ := loopsIn_proj hab hR hI
        obtain ⟨j2, j3⟩ := Itv.mem_icc.1 hti
        have hqs := hadj s ((hkey s).2 (.inr hs)) (lt_of_lt_of_le k1 hts)
        exact ⟨lo, hi, j1, hI, hqk, hqs.trans (Itv.mem_icc.1 hsI).2, .inl (j2.trans k2.le)⟩
      have c2 : 0 < 1 - c := by linarith
      have z1 : 0 ≤ (1 - c) * p.2 := mul_nonneg c2.le u1
      have z2 : 0 ≤ c * q.2 := mul_nonneg c0.le w1
      refine ⟨by linarith, ?_, ?_, ?_, ?_, ?_, ?_⟩
      · have y1 : (1 - c) * p.2 ≤ (1 - c) * 2 := mul_le_mul_of_nonneg_left u2 c2.le
        have y2 : c * q.2 ≤ c * 2 := mul_le_mul_of_nonneg_left w2 c0.le
        linarith
      · rintro ⟨I, hI, hti⟩
        have := mul_pos c2 (lt_of_lt_of_le one_pos (u3 (mkp hd I hI hti)))
        linarith
      · intro I hI hti s hsI hs hts'
        have y1 : (1 - c) * 1 ≤ (1 - c) * p.2 := mul_le_mul_of_nonneg_left (u3 (mkp hd I hI hti)) c2.le
        have y2 : c * 1 ≤ c * q.2 := mul_le_mul_of_nonneg_left (w3 (mkq hd I hI hti s hsI hs hts')) c0.le
        linarith
      · intro I hI hti s hsI hs hts'
        rw [u4 (mkp hp I hI hti), w4 (mkq hp I hI hti s hsI hs hts')]
        ring
      · intro h
        by_cases y : 0 < p.2
        · exact close _ hd p.1 (u5 y) t (by linarith) (by linarith)
        · have : 0 < q.2 := by
            by_contra y'
            have e1 : p.2 = 0 := le_antisymm (not_lt.1 y) u1
            have e2 : q.2 = 0 := le_antisymm (not_lt.1 y') w1
            rw [e1, e2] at h
            simp at h
          exact close _ hd q.1 (w5 this) t (by linarith) (by linarith)
      · intro h
        by_cases y : 1 < p.2
        · exact close _ hp p.1 (u6 y) t (by linarith) (by linarith)
        · have : 1 < q.2 := by
            by_contra y'
            have e1 : (1 - c) * p.2 ≤ (1 - c) * 1 := mul_le_mul_of_nonneg_left (not_lt.1 y) c2.le
            have e2 : c * q.2 ≤ c * 1 := mul_le_mul_of_nonneg_left (not_lt.1 y') c0.le
            linarith
          exact close _ hp q.1 (w6 this) t (by linarith) (by linarith)

/-- C117: a plane without detection has the precision 0: the assertion of `sample` fails (without it, the loop of `sample` does not end) -/
theorem C117_no_detection (fuel : Nat) (a b : K) (hab : a ≤ b) (detected proven : List (Box K)) : summary fuel a b 0 detected proven = none := by
  unfold summary Traj.sample
  rw [(start_spec hab).2.1, Itv.icc_eq_mk hab]
  simp

/-- C117: a loop `t1 < t2` of the trajectory is seen in the summary: after any number of calls of `compute_detections` with tubes containing the trajectory
with some margin (as in C46), with the loops detected by the last call and any proven ones among them, the summary is positive at `t1` and at `t2` -/
theorem C117_loops {x f : Fin 2 → ℝ → ℝ} {t0 tf t1 t2 : ℝ} {ratio : ℝ} (hr0 : 0 < ratio) (hr1 : ratio < 1) {fuel : Nat} {D : TPlaneArgs ℝ} {Ds : List (TPlaneArgs ℝ)}
    (hD : ∀ D' ∈ D :: Ds, DetectsFor x f t0 tf D') (hx : ∀ i, ContinuousOn (x i) (Set.Icc t0 tf))
    (hf : ∀ i, ∀ t, t0 < t → t < tf → HasDerivAt (x i) (f i t) t) {a b : ℝ} (ha : t0 ≤ a) (hab : a < b) (hb : b ≤ tf)
    {P : Paving ℝ} (h : (Paving.leaf [Itv.icc a b, .icc a b] SetValue.UNKNOWN).detections (largestFirst ratio) fuel (D :: Ds) = some P)
    (h1 : a ≤ t1) (ht : t1 < t2) (h2 : t2 ≤ b) (hloop : ∀ i, x i t1 = x i t2) {fuel' : Nat} (hfuel : (selected P 5).length + 1 ≤ fuel')
    {R S : List (List (Leaf ℝ))} (hR : connectedSubsets fuel' 5 0 [] P 0 P [] = some R) (hS : S ⊆ R) {dt : ℝ} (hdt : 0 < dt) :
    ∃ y n, (∀ m ≥ n, summary m a b dt (R.map fun s => Deg.Subset.box ⟨s, P⟩) (S.map fun s => Deg.Subset.box ⟨s, P⟩) = some y) ∧
      (∃ v, y.evalAt t1 = some v ∧ 0 < v) ∧ ∃ v, y.evalAt t2 = some v ∧ 0 < v := by
  have hle : Itv.icc a b ≤ Itv.icc t0 tf := (icc_le_iff hab.le).2 ⟨Itv.mem_icc.2 ⟨ha, hab.le.trans hb⟩, Itv.mem_icc.2 ⟨ha.trans hab.le, hb⟩⟩
  have hm1 : t1 ∈ Itv.icc a b := Itv.mem_icc.2 ⟨h1, ht.le.trans h2⟩
  have hm2 : t2 ∈ Itv.icc a b := Itv.mem_icc.2 ⟨h1.trans ht.le, h2⟩
  obtain ⟨_, R', hR', s, hs, q, hq, hv⟩ := C46_partial (largestFirst_isBis ratio) hD hx hf (.inl hle) h (ha.trans h1) ht (h2.trans hb) hm1 hm2 hloop
  obtain rfl : R = R' := Option.some.inj (hR.symm.trans (hR' fuel' hfuel))
  have hbd : ∀ I ∈ (Paving.leaf [Itv.icc a b, .icc a b] SetValue.UNKNOWN).box, I.isUnbounded = false := by
    intro I hI
    have : I = Itv.icc a b := by simpa [Paving.box] using hI
    rw [this, Itv.icc_eq_mk hab.le]; rfl
  obtain ⟨d1, d2, _⟩ := detections_cut hr0 hr1 (P := Paving.leaf [Itv.icc a b, .icc a b] SetValue.UNKNOWN) ⟨a, b, a, b, hab, hab, rfl⟩ hbd (.inl (.inl rfl)) h
  obtain ⟨k1, _⟩ := Deg.cut_leaves d1 0 [] (show (Deg.RR.mk a b a b).Pos from ⟨hab, hab⟩) (show P.box = (Deg.RR.mk a b a b).box from d2)
  obtain ⟨R', e1, e2, e3, _⟩ := C33_connected_subsets_partial (val := 5) (by norm_num : 0 < 2) (Deg.cut_wf d1) []
  obtain rfl : R = R' := Option.some.inj (hR.symm.trans (e1 fuel' hfuel))
  have hleaf : ∀ s ∈ R, ∀ u ∈ s, u ∈ P.leaves 0 [] := fun s hs u hu => (List.mem_filter.1 (e2.subset (List.mem_flatten.2 ⟨s, hs, hu⟩))).1
  have hbox : ∀ s ∈ R, BoxLe (Deg.Subset.box ⟨s, P⟩) [Itv.icc a b, .icc a b] ∧ ∀ u ∈ s, ∀ v, InBox v u.box → InBox v (Deg.Subset.box ⟨s, P⟩) := by
    intro s hs
    have hlb : ∀ u ∈ s, BoxLe u.box [Itv.icc a b, .icc a b] := by
      intro u hu
      obtain ⟨j1, j2, j3, j4, j5, j6⟩ := k1 u (hleaf s hs u hu)
      rw [j2]
      exact .cons ((icc_le_iff j1.1.le).2 ⟨Itv.mem_icc.2 ⟨j3, j1.1.le.trans j4⟩, Itv.mem_icc.2 ⟨j3.trans j1.1.le, j4⟩⟩)
        (.cons ((icc_le_iff j1.2.le).2 ⟨Itv.mem_icc.2 ⟨j5, j1.2.le.trans j6⟩, Itv.mem_icc.2 ⟨j5.trans j1.2.le, j6⟩⟩) .nil)
    obtain ⟨g1, _, g3⟩ := SPav.foldl_hull (n := 2) (s.map Leaf.box) (a := Box.empty 2) (B := [Itv.icc a b, .icc a b]) rfl
      (.cons bot_le (.cons bot_le .nil)) (fun E hE => by obtain ⟨u, hu, rfl⟩ := List.mem_map.1 hE; exact hlb u hu)
    unfold Deg.Subset.box
    rw [List.foldl_map] at g1 g3
    exact ⟨g1, fun u hu v hv => g3 _ (List.mem_map_of_mem hu) v hv⟩
  have hin : LoopsIn a b (R.map fun s => Deg.Subset.box ⟨s, P⟩) := by
    intro B hB
    obtain ⟨s, hs, rfl⟩ := List.mem_map.1 hB
    refine ⟨(hbox s hs).1, ?_⟩
    obtain ⟨u, hu⟩ := List.exists_mem_of_ne_nil s (e3 s hs)
    obtain ⟨j1, j2, _⟩ := k1 u (hleaf s hs u hu)
    refine ⟨[(Deg.rect u).x0, (Deg.rect u).y0], (hbox s hs).2 u hu _ ?_⟩
    rw [j2]
    exact .cons (Itv.mem_icc.2 ⟨le_rfl, j1.1.le⟩) (.cons (Itv.mem_icc.2 ⟨le_rfl, j1.2.le⟩) .nil)
  obtain ⟨y, n, y1, _, y3⟩ := C117_summary hab.le hdt hin (List.map_subset _ hS)
  have hpr : ∀ t, t = t1 ∨ t = t2 → InLoop (R.map fun s => Deg.Subset.box ⟨s, P⟩) t := by
    have hv' := (hbox s hs).2 q hq _ hv
    intro t htt
    generalize hB : Deg.Subset.box ⟨s, P⟩ = B at hv'
    have hBm : B ∈ R.map fun s => Deg.Subset.box ⟨s, P⟩ := List.mem_map.2 ⟨s, hs, hB⟩
    cases hv' with
    | cons w1 hv' =>
    cases hv' with
    | cons w2 hv' =>
    rcases htt with rfl | rfl
    · exact ⟨_, List.mem_flatMap.2 ⟨_, hBm, by simp⟩, w1⟩
    · exact ⟨_, List.mem_flatMap.2 ⟨_, hBm, by simp⟩, w2⟩
  obtain ⟨v1, z1, _, _, z2, _⟩ := y3 t1 h1 (ht.le.trans h2)
  obtain ⟨v2, z3, _, _, z4, _⟩ := y3 t2 (h1.trans ht.le) h2
  exact ⟨y, n, y1, ⟨v1, z1, z2 (hpr t1 (.inl rfl))⟩, v2, z3, z4 (hpr t2 (.inr rfl))⟩

/-- a detected loop, and a proven one, on `[0,8]` -/
def summaryLoops : List (Box ℚ) := [[.icc (1/2) (3/2), .icc 6 7], [.icc (9/4) (11/4), .icc 4 (9/2)]]

example : LoopsIn 0 8 summaryLoops := by
  intro B hB
  simp only [summaryLoops, List.mem_cons, List.not_mem_nil, or_false] at hB
  rcases hB with rfl | rfl
  · exact ⟨.cons (by decide +kernel) (.cons (by decide +kernel) .nil), [1, 6], .cons (by decide +kernel) (.cons (by decide +kernel) .nil)⟩
  · exact ⟨.cons (by decide +kernel) (.cons (by decide +kernel) .nil), [5/2, 4], .cons (by decide +kernel) (.cons (by decide +kernel) .nil)⟩

example : (summary 20 0 8 1 summaryLoops [[.icc (9/4) (11/4), .icc 4 (9/2)]]).map (·.pts) =
    some [(0, 1), (1, 1), (2, 2), (3, 0), (4, 2), (5, 0), (6, 1), (7, 1), (8, 0)] := by decide +kernel

/-- C117: 1 and 2 are only exact at the samples: at the end of a proven loop without sample after it, the summary is smaller than 1 (as for a loop that is
not proven), and it is larger than 1 at a time that is in no loop -/
theorem C117_proven_fails :
    (summary 20 (0 : ℚ) 8 1 summaryLoops [[.icc (9/4) (11/4), .icc 4 (9/2)]]).bind (fun x => x.evalAt (11/4)) = some (1/2) ∧
      (11/4 : ℚ) ∈ Itv.icc (9/4 : ℚ) (11/4) ∧
      (summary 20 (0 : ℚ) 8 1 summaryLoops [[.icc (9/4) (11/4), .icc 4 (9/2)]]).bind (fun x => x.evalAt (15/8)) = some (15/8) ∧
      ¬ InLoop summaryLoops (15/8) := by
  refine ⟨by decide +kernel, by decide +kernel, by decide +kernel, ?_⟩
  rintro ⟨I, hI, h⟩
  simp only [projections, summaryLoops, List.flatMap_cons, List.flatMap_nil, List.take, List.append_nil, List.cons_append, List.nil_append, List.mem_cons,
    List.not_mem_nil, or_false] at hI
  rcases hI with rfl | rfl | rfl | rfl <;> exact absurd (Itv.mem_icc.1 h) (by norm_num)

end Codac.Props
