import Verif.Proofs.Resize
/-!
# C50, C55, C56: growing and shrinking a Manhattan polygon set (`bloat2`, `shrink2`)
-/
namespace Verif.Properties.Resize
open Verif.BooleanOp Verif.Set90 Verif.Isotropy Verif.Interval Verif.Rectangle Verif.RectForm Verif.Spec Verif.Resize
open Verif.Properties.RectForm Verif.Properties.Set90

variable {umin umax : Int}

/-- `p` lies in the sizing rectangle `[-west, east] x [-south, north]` placed at `q`. -/
def Near (west east south north : Int) (q p : ℚ × ℚ) : Prop :=
  -(west : ℚ) ≤ p.1 - q.1 ∧ p.1 - q.1 ≤ east ∧ -(south : ℚ) ≤ p.2 - q.2 ∧ p.2 - q.2 ≤ north

/-- C50: after `bloat2(west, east, south, north)` a point is covered exactly when it lies in the
sizing rectangle placed at some point the set covered (the Minkowski sum). The amounts are bounded
by `m` and the vertices stay `m` away from the limits of the coordinate type, so nothing overflows. -/
theorem C50_bloat2 {s : PSet} (h : Valid umin umax s) {w e so n m : Int} (hw : 0 ≤ w ∧ w ≤ m) (he : 0 ≤ e ∧ e ≤ m)
    (hs : 0 ≤ so ∧ so ≤ m) (hn : 0 ≤ n ∧ n ≤ m) (hr : InRange (umin + m) (umax - m) s.data) :
    ∃ t, s.bloat2 umax w e so n = some t ∧ Valid umin umax t ∧
      ∀ p, Covers t p ↔ ∃ q, Covers s q ∧ Near w e so n q p := by
  obtain ⟨s1, e1, v1, o1, d1, u1, c1⟩ := clean_spec' h
  obtain ⟨rs, s2, e2, ti, hin0, -⟩ := C13_get_rectangles v1
  have hne := ti.1
  have hv' : Valid (umin + m) (umax - m) s := ⟨h.orient, h.sorted, h.clean, h.closed, hr⟩
  have hin : ∀ r ∈ rs, RectIn (umin + m) (umax - m) r := by
    intro r hr
    have g := hne r hr
    have key : ∀ a b : Int, InRect r ((a : ℚ), (b : ℚ)) → umin + m ≤ a ∧ a < umax - m ∧ umin + m ≤ b ∧ b < umax - m := by
      intro a b hab
      by_contra hcon
      have h1 := (c1 _).mp ((ti.2.2 _).mpr ⟨r, hr, hab⟩)
      unfold Covers at h1
      rw [depth_out hv' (by omega)] at h1
      omega
    have k1 := key r.h.lo r.v.lo (by
      unfold InRect; simp only [le_refl, true_and, Int.cast_lt]; exact ⟨g.1, g.2⟩)
    have k2 := key (r.h.hi - 1) (r.v.hi - 1) (by
      unfold InRect; simp only [Int.cast_le, Int.cast_lt]; omega)
    unfold RectIn
    omega
  have hcl : Valid umin umax s2.clear := by
    have : s2.orient = s1.orient := by
      obtain ⟨t', e', -, o', -⟩ := clean_spec' v1
      have e3 := e2
      simp only [PSet.getRectangles, e', Option.bind_eq_bind, Option.bind_some] at e3
      cases hf : formRects umax t'.data with
      | none => rw [hf] at e3; simp at e3
      | some x => rw [hf] at e3; simp at e3; rw [← e3.2, o']
    exact ⟨by show s2.orient = _ ∨ s2.orient = _; rw [this]; exact v1.orient, fun _ => List.Pairwise.nil, fun _ => flat_nil, closed_nil, by simp [InRange, PSet.clear]⟩
  obtain ⟨f1, -, f3⟩ := foldl_insertRect hcl false (rs.map (fun r => convolveRect r ⟨⟨-w, e⟩, ⟨-so, n⟩⟩)) (fun r hr => by
    obtain ⟨q, hq, rfl⟩ := List.mem_map.mp hr
    have := hin q hq
    unfold RectIn at this ⊢
    simp only [convolveRect, convolve]
    omega)
  refine ⟨_, by simp only [PSet.bloat2, e1, e2, Option.bind_eq_bind, Option.bind_some]; rfl, f1, fun p => ?_⟩
  unfold Covers
  rw [f3, depth_clear]
  obtain ⟨p1, p2⟩ := sum_inR_pos p (rs.map (fun r => convolveRect r ⟨⟨-w, e⟩, ⟨-so, n⟩⟩))
  simp only [Bool.false_eq_true, if_false, one_mul, zero_add]
  rw [p2]
  constructor
  · rintro ⟨r, hr, hp⟩
    obtain ⟨q, hq, rfl⟩ := List.mem_map.mp hr
    obtain ⟨z, hz, z1, z2, z3, z4⟩ := (convolve_iff q _ _ _ _ (by omega) (by omega) (hne q hq) p).mp hp
    push_cast at z1 z3
    exact ⟨z, (c1 z).mp ((ti.2.2 z).mpr ⟨q, hq, hz⟩), z1, z2, z3, z4⟩
  · rintro ⟨z, hz, z1, z2, z3, z4⟩
    obtain ⟨q, hq, hqz⟩ := (ti.2.2 z).mp ((c1 z).mpr hz)
    exact ⟨_, List.mem_map.mpr ⟨q, hq, rfl⟩, (convolve_iff q _ _ _ _ (by omega) (by omega) (hne q hq) p).mpr
      ⟨z, hqz, by push_cast; exact z1, z2, by push_cast; exact z3, z4⟩⟩

/-- C55: after `shrink2(west, east, south, north)` a point is covered exactly when the set covered
every point whose sizing rectangle reaches it, that is the whole rectangle `[p.x-west, p.x+east] x
[p.y-south, p.y+north]` around it (erosion). -/
theorem C55_shrink2 {s : PSet} (h : Valid umin umax s) {w e so n m : Int} (hw : 0 ≤ w ∧ w ≤ m) (he : 0 ≤ e ∧ e ≤ m)
    (hs : 0 ≤ so ∧ so ≤ m) (hn : 0 ≤ n ∧ n ≤ m) (hr : InRange (umin + (m + 10)) (umax - (m + 10)) s.data) :
    ∃ t, s.shrink2 umax w e so n = some t ∧ Valid umin umax t ∧
      ∀ p, Covers t p ↔ ∀ q, Near w e so n p q → Covers s q := by
  obtain ⟨res, t, x1, -, v, o, d, dep, xn, xs⟩ := extents_facts h
  have hct : ∀ p, Covers t p ↔ Covers s p := fun p => by
    unfold Covers; rw [dep]; split_ifs with hh <;> simp [hh]
  have hself : ∀ p, Near w e so n p p := fun p => by
    have a1 : (0 : ℚ) ≤ w := by exact_mod_cast hw.1
    have a2 : (0 : ℚ) ≤ e := by exact_mod_cast he.1
    have a3 : (0 : ℚ) ≤ so := by exact_mod_cast hs.1
    have a4 : (0 : ℚ) ≤ n := by exact_mod_cast hn.1
    unfold Near; simp only [sub_self]; exact ⟨by linarith, a2, by linarith, a4⟩
  cases res with
  | none =>
    refine ⟨t, by simp [PSet.shrink2, x1], v, fun p => ?_⟩
    rw [hct]
    exact ⟨fun hp => (xn rfl p hp).elim, fun hp => hp p (hself p)⟩
  | some E =>
    obtain ⟨y1, y2, y3, y4, y5⟩ := xs E rfl
    have hE := y5 _ _ hr
    unfold RectIn at hE
    set B : Rect := bloatRect E 10 with hBdef
    have eB : B = ⟨⟨E.h.lo - 10, E.h.hi + 10⟩, ⟨E.v.lo - 10, E.v.hi + 10⟩⟩ := rfl
    have hBin : RectIn umin umax B := by rw [eB]; unfold RectIn; dsimp only; omega
    have hBne : B.h.lo < B.h.hi ∧ B.v.lo < B.v.hi := by rw [eB]; dsimp only; omega
    obtain ⟨rs, r1, r2, r3⟩ := complement_rects v d hBin hBne
      (fun w hw => by have := y4 w hw; rw [eB]; dsimp only; omega)
      (fun p hp => by
        obtain ⟨k1, k2, k3, k4⟩ := y1 p ((hct p).mp hp)
        rw [eB]; unfold InRect; push_cast
        exact ⟨by linarith, by linarith, by linarith, by linarith⟩)
    have oS : (t.insertRect B true).sort.orient = t.orient := by
      rw [(sort_facts _).1, insertRect_eq]
    have hRin : ∀ r ∈ rs.map (SR.toRect t.orient), r.h.lo < r.h.hi ∧ r.v.lo < r.v.hi ∧ B.h.lo ≤ r.h.lo ∧ r.h.hi ≤ B.h.hi ∧ B.v.lo ≤ r.v.lo ∧ r.v.hi ≤ B.v.hi := by
      intro r hr
      obtain ⟨g1, g2⟩ := r2 r hr
      have key : ∀ a b : Int, InRect r ((a : ℚ), (b : ℚ)) → B.h.lo ≤ a ∧ a < B.h.hi ∧ B.v.lo ≤ b ∧ b < B.v.hi := by
        intro a b hab
        have := ((r3 _).mp ⟨r, hr, hab⟩).1
        unfold InRect at this
        simp only [Int.cast_le, Int.cast_lt] at this
        exact this
      have k1 := key r.h.lo r.v.lo (by
        unfold InRect; simp only [le_refl, true_and, Int.cast_lt]; exact ⟨g1, g2⟩)
      have k2 := key (r.h.hi - 1) (r.v.hi - 1) (by
        unfold InRect; simp only [Int.cast_le, Int.cast_lt]; omega)
      omega
    set C : Rect := ⟨⟨-e, w⟩, ⟨-n, so⟩⟩ with hC
    have hcl : Valid umin umax ((t.insertRect B true).sort.clear) := clear_valid (insertRect_valid v B true hBin).sort
    obtain ⟨f1, f2, f3⟩ := foldl_insertRect hcl true ((rs.map (SR.toRect t.orient)).map (fun r => convolveRect r C)) (fun r hr => by
      obtain ⟨q, hq, rfl⟩ := List.mem_map.mp hr
      have := hRin q hq
      rw [eB] at this
      unfold RectIn
      simp only [convolveRect, convolve, hC]
      dsimp only at this
      omega)
    have hBC : RectIn umin umax (convolveRect B C) := by
      rw [eB]; unfold RectIn; simp only [convolveRect, convolve, hC]; omega
    have f4 := insertRect_valid f1 (convolveRect B C) false hBC
    obtain ⟨t', e', v', -, -, -, c'⟩ := clean_spec' f4
    refine ⟨t', ?_, v', fun p => ?_⟩
    · simp only [PSet.shrink2, x1, Option.bind_eq_bind, Option.bind_some]
      rw [← hBdef, r1, oS, ← hC]
      simp only [Option.bind_some]
      rw [List.foldl_map] at e'
      exact e'
    · rw [c']
      unfold RectIn at hBC
      have hcov : Covers (List.foldl (fun s r => s.insertRect r true) (t.insertRect B true).sort.clear
          ((rs.map (SR.toRect t.orient)).map (fun r => convolveRect r C)) |>.insertRect (convolveRect B C) false) p ↔
          InRect (convolveRect B C) p ∧ ∀ r ∈ rs.map (SR.toRect t.orient), ¬ InRect (convolveRect r C) p := by
        unfold Covers
        rw [insertRect_depth f1.orient _ false (by omega) (by omega), f3, depth_clear]
        obtain ⟨p1, p2⟩ := sum_inR_pos p ((rs.map (SR.toRect t.orient)).map (fun r => convolveRect r C))
        have e4 : (∀ r ∈ rs.map (SR.toRect t.orient), ¬ InRect (convolveRect r C) p) ↔
            ¬ 0 < (((rs.map (SR.toRect t.orient)).map (fun r => convolveRect r C)).map (inR p)).sum := by
          rw [p2]
          constructor
          · rintro hh ⟨r, hr, hp⟩
            obtain ⟨q, hq, rfl⟩ := List.mem_map.mp hr
            exact hh q hq hp
          · intro hh r hr hp
            exact hh ⟨_, List.mem_map.mpr ⟨r, hr, rfl⟩, hp⟩
        rw [e4]
        generalize (((rs.map (SR.toRect t.orient)).map (fun r => convolveRect r C)).map (inR p)).sum = S at p1
        by_cases hin : InRect (convolveRect B C) p
        · have := hin
          unfold InRect at this
          rw [if_pos this]
          simp [hin]; omega
        · have := hin
          unfold InRect at this
          rw [if_neg this]
          simp [hin]; omega
      rw [hcov]
      have conv : ∀ r : Rect, r.h.lo < r.h.hi → r.v.lo < r.v.hi → (InRect (convolveRect r C) p ↔ ∃ q, InRect r q ∧ Near w e so n p q) := by
        intro r g1 g2
        rw [hC, convolve_iff r _ _ _ _ (by omega) (by omega) ⟨g1, g2⟩]
        constructor <;> rintro ⟨q, hq, z1, z2, z3, z4⟩ <;> refine ⟨q, hq, ?_⟩
        · push_cast at z1 z3
          exact ⟨by linarith, by linarith, by linarith, by linarith⟩
        · push_cast
          exact ⟨by linarith, by linarith, by linarith, by linarith⟩
      rw [conv B hBne.1 hBne.2]
      constructor
      · rintro ⟨⟨b, hb, nb⟩, hno⟩ q nq
        have bad : ∀ z, InRect B z → Near w e so n p z → Covers s z := by
          intro z hz nz
          by_contra hc
          obtain ⟨r, hr, hrz⟩ := (r3 z).mpr ⟨hz, fun hh => hc ((hct z).mp hh)⟩
          exact hno r hr ((conv r (r2 r hr).1 (r2 r hr).2).mpr ⟨z, hrz, nz⟩)
        by_cases hq : InRect B q
        · exact bad q hq nq
        exfalso
        rw [eB] at hb hq bad
        unfold InRect at hb hq bad
        push_cast at hb hq bad
        unfold Near at nb nq bad
        obtain ⟨b1, b2, b3, b4⟩ := hb
        have b5 := y1 b (bad b ⟨b1, b2, b3, b4⟩ nb)
        by_cases q1 : (E.h.lo : ℚ) - 10 ≤ q.1
        · by_cases q2 : q.1 < (E.h.hi : ℚ) + 10
          · by_cases q3 : (E.v.lo : ℚ) - 10 ≤ q.2
            · have q4 : (E.v.hi : ℚ) + 10 ≤ q.2 := by
                by_contra hcon; push Not at hcon; exact hq ⟨q1, q2, q3, hcon⟩
              have := y1 (b.1, (E.v.hi : ℚ) + 1) (bad _ ⟨b1, b2, by dsimp only; linarith, by dsimp only; linarith⟩
                ⟨nb.1, nb.2.1, by dsimp only; linarith, by dsimp only; linarith⟩)
              dsimp only at this; linarith
            · push Not at q3
              have := y1 (b.1, (E.v.lo : ℚ) - 1) (bad _ ⟨b1, b2, by dsimp only; linarith, by dsimp only; linarith⟩
                ⟨nb.1, nb.2.1, by dsimp only; linarith, by dsimp only; linarith⟩)
              dsimp only at this; linarith
          · push Not at q2
            have := y1 ((E.h.hi : ℚ) + 1, b.2) (bad _ ⟨by dsimp only; linarith, by dsimp only; linarith, b3, b4⟩
              ⟨by dsimp only; linarith, by dsimp only; linarith, nb.2.2⟩)
            dsimp only at this; linarith
        · push Not at q1
          have := y1 ((E.h.lo : ℚ) - 1, b.2) (bad _ ⟨by dsimp only; linarith, by dsimp only; linarith, b3, b4⟩
            ⟨by dsimp only; linarith, by dsimp only; linarith, nb.2.2⟩)
          dsimp only at this; linarith
      · intro hall
        refine ⟨⟨p, ?_, hself p⟩, fun r hr hp => ?_⟩
        · obtain ⟨k1, k2, k3, k4⟩ := y1 p (hall p (hself p))
          rw [eB]; unfold InRect; push_cast
          exact ⟨by linarith, by linarith, by linarith, by linarith⟩
        · obtain ⟨q, hq, nq⟩ := (conv r (r2 r hr).1 (r2 r hr).2).mp hp
          exact ((r3 q).mp ⟨r, hr, hq⟩).2 ((hct q).mpr (hall q nq))

/-- C56: growing and then shrinking by the same amounts loses nothing, and shrinking and then
growing adds nothing. -/
theorem C56_closing_opening {s g k : PSet} (h : Valid umin umax s) {w e so n m : Int} (hw : 0 ≤ w ∧ w ≤ m) (he : 0 ≤ e ∧ e ≤ m)
    (hs : 0 ≤ so ∧ so ≤ m) (hn : 0 ≤ n ∧ n ≤ m) (hr : InRange (umin + (m + 10)) (umax - (m + 10)) s.data)
    (hg : s.bloat2 umax w e so n = some g) (hk : s.shrink2 umax w e so n = some k)
    (hrg : InRange (umin + (m + 10)) (umax - (m + 10)) g.data) (hrk : InRange (umin + m) (umax - m) k.data) :
    (∃ t, g.shrink2 umax w e so n = some t ∧ ∀ p, Covers s p → Covers t p) ∧
    (∃ t, k.bloat2 umax w e so n = some t ∧ ∀ p, Covers t p → Covers s p) := by
  have hr' : InRange (umin + m) (umax - m) s.data := fun v hv => by have := hr v hv; omega
  obtain ⟨g', eg, vg, cg⟩ := C50_bloat2 h hw he hs hn hr'
  rw [hg] at eg; cases eg
  obtain ⟨k', ek, vk, ck⟩ := C55_shrink2 h hw he hs hn hr
  rw [hk] at ek; cases ek
  constructor
  · obtain ⟨t, et, -, ct⟩ := C55_shrink2 vg hw he hs hn hrg
    exact ⟨t, et, fun p hp => (ct p).mpr (fun q nq => (cg q).mpr ⟨p, hp, nq⟩)⟩
  · obtain ⟨t, et, -, ct⟩ := C50_bloat2 vk hw he hs hn hrk
    refine ⟨t, et, fun p hp => ?_⟩
    obtain ⟨q, hq, nq⟩ := (ct p).mp hp
    exact (ck q).mp hq p nq

/-- A square with a hole. -/
private def exS : PSet := ((PSet.mk0 VERTICAL).insertRect ⟨⟨0, 20⟩, ⟨0, 20⟩⟩ false).insertRect ⟨⟨8, 12⟩, ⟨8, 12⟩⟩ true

example : Valid (-100) 100 exS ∧ InRange (-100 + (3 + 10)) (100 - (3 + 10)) exS.data :=
  ⟨insertRect_valid (insertRect_valid (mk0_valid _ (Or.inr rfl)) _ _ (by unfold RectIn; decide)) _ _ (by unfold RectIn; decide), by
    have : ∀ v ∈ exS.data, -100 + (3 + 10) ≤ v.x ∧ v.x ≤ 100 - (3 + 10) ∧ -100 + (3 + 10) ≤ v.y ∧ v.y ≤ 100 - (3 + 10) := by decide +kernel
    exact this⟩

-- growing by (1, 2, 3, 0): the hole keeps 4-1-2 columns and 4-3-0 rows
example : ((exS.bloat2 100 1 2 3 0).bind (fun t => t.getRectangles 100)).map Prod.fst =
    some [⟨⟨-1, 10⟩, ⟨-3, 20⟩⟩, ⟨⟨10, 11⟩, ⟨-3, 8⟩⟩, ⟨⟨10, 11⟩, ⟨9, 20⟩⟩, ⟨⟨11, 22⟩, ⟨-3, 20⟩⟩] := by decide +kernel

-- shrinking by (1, 2, 3, 0): the hole grows to the east by 1, to the west by 2, to the north by 3
example : ((exS.shrink2 100 1 2 3 0).bind (fun t => t.getRectangles 100)).map Prod.fst =
    some [⟨⟨1, 6⟩, ⟨3, 20⟩⟩, ⟨⟨6, 13⟩, ⟨3, 8⟩⟩, ⟨⟨6, 13⟩, ⟨15, 20⟩⟩, ⟨⟨13, 18⟩, ⟨3, 20⟩⟩] := by decide +kernel

-- the hypotheses of `C56_closing_opening` on the grown and shrunk sets
example : (((exS.bloat2 100 1 2 3 0).map (fun t => t.data.all (fun v => decide (-87 ≤ v.x ∧ v.x ≤ 87 ∧ -87 ≤ v.y ∧ v.y ≤ 87)))) = some true) ∧
    (((exS.shrink2 100 1 2 3 0).map (fun t => t.data.all (fun v => decide (-97 ≤ v.x ∧ v.x ≤ 97 ∧ -97 ≤ v.y ∧ v.y ≤ 97)))) = some true) := by
  decide +kernel

end Verif.Properties.Resize
