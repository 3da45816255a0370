import Verif.Proofs.ExtentsClean
import Verif.Proofs.N45Prog
import Verif.Properties.ArbForm
import Verif.Properties.Deg45
import Verif.Properties.Form45
import Verif.Properties.Interval
/-!
# C93: the extents of polygons and polygon sets are the least rectangle around them
-/
namespace Verif.Properties.Extents
open Verif Verif.Spec Verif.Spec.Arb Verif.Extents Verif.Rectangle Verif.Cut Verif.PolySet Verif.ArbForm
open Verif.Properties.Cut Verif.Properties.ArbForm
open Verif.Properties.Deg45 (exP)

/-- The rectangle is the least one around the region. -/
abbrev Tight (R : ℚ × ℚ → Prop) (r : Rect) : Prop := IsExtents R r.h.lo r.v.lo r.h.hi r.v.hi

/-! ### Sets at any angle -/

theorem extents_of {fp : FP} {umin umax : Int} {S C : Data} (h0 : clean fp umin umax S = some C) (c : Clean C) :
    (extents fp umin umax S = some none ∧ ∀ q, ¬ 0 < Arb.depth C q) ∨ ∃ r, extents fp umin umax S = some (some r) ∧ (∃ q, 0 < Arb.depth C q) ∧ Tight (fun q => 0 < Arb.depth C q) r := by
  unfold extents
  rw [h0]
  by_cases hne : C = []
  · subst hne
    exact Or.inl ⟨rfl, fun q => by simp [Spec.Arb.depth]⟩
  · obtain ⟨r, h1, h2⟩ := fold_edges_nil hne
    exact Or.inr ⟨r, by rw [Option.map_some, h1], c.covers hne, c.extents mem_endsOf h2⟩

/-- C93: the extents of a set of rectilinear edges. `false` is returned exactly if nothing is covered. -/
theorem C93_manhattan (fp : FP) (umin umax : Int) (D S : Data) (hS : S.Perm D) (hM : Manhattan (D.map Prod.fst))
    (hd : ∀ e ∈ D, Directed e.1) (hu : ∀ e ∈ D, umin ≤ min e.1.1.2 e.1.2.2) (hD : Closed D) :
    (extents fp umin umax S = some none ∧ ∀ q, ¬ 0 < Arb.depth D q) ∨
    ∃ r, extents fp umin umax S = some (some r) ∧ (∃ q, 0 < Arb.depth D q) ∧ Tight (fun q => 0 < Arb.depth D q) r := by
  obtain ⟨C, h1, h2, h3, h4, h5, h6, _⟩ := C74_clean fp umin umax D S hS hM hd hu hD
  have e : (fun q => 0 < Arb.depth C q) = fun q => 0 < Arb.depth D q := by
    funext q; rw [h2]; split_ifs with g <;> simp [g]
  have := extents_of h1 (clean_of (fun e he => (h3 e he).1) h5 h6 h4 (fun e he => (h3 e he).2) (fun q => by rw [h2]; split_ifs <;> simp))
  rw [e] at this
  simpa only [fun q => congrFun e q] using this

/-- A square with a hole, and the same counted once more the other way round: nothing is covered. -/
example : Manhattan ((build frame).map Prod.fst) ∧ (∀ e ∈ build frame, Directed e.1) ∧ (∀ e ∈ build frame, (-100 : Int) ≤ min e.1.1.2 e.1.2.2) ∧
    Closed (build frame) ∧ extents exactFP (-100) 100 (build frame) = some (some ⟨⟨0, 9⟩, ⟨0, 9⟩⟩) ∧
    extents exactFP (-100) 100 (build (frame ++ frame.map (fun o => (o.1, true)))) = some none :=
  ⟨by decide +kernel, by decide +kernel, by decide +kernel, (build_spec frame).2.1, by decide +kernel, by decide +kernel⟩

/-- C93: the extents of a set of edges that meet in lattice points. -/
theorem C93_lattice (fp : FP) (hfp : fp.Accurate) (umin umax : Int) (D S : Data) (hS : S.Perm D) (hL : OnLattice (D.map Prod.fst))
    (hd : ∀ e ∈ D, Directed e.1) (hu : ∀ e ∈ D, umin ≤ min e.1.1.2 e.1.2.2) (hD : Closed D) :
    (extents fp umin umax S = some none ∧ ∀ q, ¬ 0 < Arb.depth D q) ∨
    ∃ r, extents fp umin umax S = some (some r) ∧ (∃ q, 0 < Arb.depth D q) ∧ Tight (fun q => 0 < Arb.depth D q) r := by
  have hm : ∀ e, e ∈ D.map Prod.fst ↔ e ∈ (S ++ []).map Prod.fst := fun e => by rw [List.append_nil]; exact ((hS.map _).mem_iff).symm
  obtain ⟨C, h1, h2, h3, h4, h5, h6, _⟩ := C75_boolean fp hfp 0 umin umax S [] (onLattice_perm hm hL)
    (by rw [List.append_nil]; intro e he; exact hd e (hS.mem_iff.1 he)) (by rw [List.append_nil]; intro e he; exact hu e (hS.mem_iff.1 he))
    (closed_perm hS hD) (fun v => rfl)
  rw [clean_eq (fun e he => hd e (hS.mem_iff.1 he))] at h1
  have e : (fun q => 0 < Arb.depth C q) = fun q => 0 < Arb.depth D q := by
    funext q; rw [h2, depth_or S D hS q]; split_ifs with g <;> simp [g]
  have := extents_of h1 (clean_of (fun e he => (h3 e he).1.1) h5 h6 h4 (fun e he => (h3 e he).2) (fun q => by rw [h2]; split_ifs <;> simp))
  rw [e] at this
  simpa only [fun q => congrFun e q] using this

example : (extents exactFP (-100) 100 (diamond ++ square) = some none ∧ ∀ q, ¬ 0 < Arb.depth (diamond ++ square) q) ∨
    ∃ r, extents exactFP (-100) 100 (diamond ++ square) = some (some r) ∧ (∃ q, 0 < Arb.depth (diamond ++ square) q) ∧
      Tight (fun q => 0 < Arb.depth (diamond ++ square) q) r :=
  C93_lattice exactFP C75_exact (-100) 100 _ _ (List.Perm.refl _) diamond_square.1 diamond_square.2 (by decide +kernel)
    (by
      have e : diamond ++ square = build [(([(0, -4), (4, 0), (0, 4), (-4, 0)], []), false), (([(-3, -3), (3, -3), (3, 3), (-3, 3)], []), false)] := by decide +kernel
      rw [e]
      exact (build_spec [(([(0, -4), (4, 0), (0, 4), (-4, 0)], []), false), (([(-3, -3), (3, -3), (3, 3), (-3, 3)], []), false)]).2.1)

example : extents exactFP (-100) 100 (diamond ++ square) = some (some ⟨⟨-4, 4⟩, ⟨-4, 4⟩⟩) := by decide +kernel

/-- C93: the extents of any set are those of the polygons read from it, and contain every covered point whose unit square no edge meets. -/
theorem C93_any (fp : FP) (hfp : fp.Floor) (umin umax : Int) (D S : Data) (hS : S.Perm D)
    (hd : ∀ e ∈ D, Directed e.1) (hu : ∀ e ∈ D, umin ≤ min e.1.1.2 e.1.2.2) (hD : Closed D) :
    ∃ out, getPolys fp umin umax S = some out ∧
      ((extents fp umin umax S = some none ∧ (∀ q, ¬ 0 < ((rings out).map (fun l => windAt l q)).sum) ∧ ∀ q, Clear (D.map Prod.fst) q → ¬ 0 < Arb.depth D q) ∨
      ∃ r, extents fp umin umax S = some (some r) ∧ (∃ q, 0 < ((rings out).map (fun l => windAt l q)).sum) ∧ Tight (fun q => 0 < ((rings out).map (fun l => windAt l q)).sum) r ∧
        ∀ q, Clear (D.map Prod.fst) q → 0 < Arb.depth D q → (r.h.lo ≤ q.1 ∧ q.1 ≤ r.h.hi) ∧ r.v.lo ≤ q.2 ∧ q.2 ≤ r.v.hi) := by
  obtain ⟨C, h1, h2, h3, h4, h5, h6, h7⟩ := C76_boolean fp hfp 0 umin umax S []
    (by rw [List.append_nil]; intro e he; exact hd e (hS.mem_iff.1 he)) (by rw [List.append_nil]; intro e he; exact hu e (hS.mem_iff.1 he))
    (closed_perm hS hD) (fun v => rfl)
  rw [clean_eq (fun e he => hd e (hS.mem_iff.1 he))] at h1
  obtain ⟨out, o1, _, _, _, o4⟩ := get_of h1 (fun e he => (h3 e he).1) h5 h6 h4 (fun e he => (h3 e he).2.2.2.2) h7
  have hc : ∀ q, Clear (D.map Prod.fst) q → Arb.depth C q = if Arb.depth D q > 0 then 1 else 0 := by
    intro q hq
    rw [h2 q, depth_or S D hS q]
    intro e he
    rw [List.append_nil] at he
    exact hq e ((hS.map _).mem_iff.1 he)
  refine ⟨out, o1, ?_⟩
  simp only [o4]
  rcases extents_of h1 (clean_of (fun e he => (h3 e he).1) h5 h6 h4 (fun e he => (h3 e he).2.2.2.2) h7) with ⟨a, b⟩ | ⟨r, a, b, t⟩
  · refine Or.inl ⟨a, b, fun q hq hp => b q ?_⟩
    rw [hc q hq, if_pos hp]
    exact one_pos
  · refine Or.inr ⟨r, a, b, t, fun q hq hp => t.1 q ?_⟩
    show 0 < Arb.depth C q
    rw [hc q hq, if_pos hp]
    exact one_pos

/-- Two triangles whose sides cross between lattice points. -/
example : exactFP.Floor ∧ (∀ e ∈ build (tri1 ++ tri2), Directed e.1) ∧ (∀ e ∈ build (tri1 ++ tri2), (-100 : Int) ≤ min e.1.1.2 e.1.2.2) ∧
    Closed (build (tri1 ++ tri2)) ∧ extents exactFP (-100) 100 (build (tri1 ++ tri2)) = some (some ⟨⟨-3, 20⟩, ⟨-4, 17⟩⟩) :=
  ⟨exactFP_floor, by decide +kernel, by decide +kernel, (build_spec _).2.1, by decide +kernel⟩

/-! ### Sets at 45 degrees -/

theorem cmp_pts {C D : List Set45.VC} (h : N45.Cmp C D) : ∀ p, (∃ w ∈ D, w.1 = p) ↔ ∃ v ∈ C, v.1 = p := by
  intro p
  constructor
  · induction h with
    | nil => simp
    | @blk x g C D hg h1 h2 h ih =>
      rintro ⟨w, hw, rfl⟩
      rcases List.mem_append.1 hw with hw | hw
      · exact ⟨_, List.mem_cons_self, (h1 w hw).symm⟩
      · obtain ⟨v, hv, e⟩ := ih ⟨w, hw, rfl⟩
        exact ⟨v, List.mem_cons_of_mem _ hv, e⟩
  · rintro ⟨v, hv, rfl⟩
    exact h.pts v hv

/-- C93: the extents of a 45-degree set made by any program of insertions and operations. -/
theorem C93_45 {umin umax : Int} (hu : umin ≤ umax) {p : Deg45.Prog} (h : p.Ok umin umax) {s : Set45.S45} (e : p.run umin umax = .ok s) :
    (extents45 umin umax s = .box none ∧ ∀ q, ¬ 0 < p.depth q) ∨
    (∃ r, extents45 umin umax s = .box (some r) ∧ (∃ q, 0 < p.depth q) ∧ Tight (fun q => 0 < p.depth q) r) ∨
    (extents45 umin umax s = .fail .precision ∧ ¬ p.Even) := by
  rcases Set45.run_spec hu h with ⟨v, e', g⟩ | ⟨e', -⟩
  swap
  · rw [e] at e'; simp at e'
  rw [e] at e'; injection e' with e'; subst e'
  rcases Set45.clean_spec hu g.valid with ⟨u, c, hv, _, _, hd, _⟩ | ⟨c, _, c2⟩
  swap
  · refine Or.inr (Or.inr ⟨by unfold extents45; rw [c], fun he => c2 (g.even he)⟩)
  obtain ⟨C, k1, k2⟩ := N45.clean_regular hu g.valid (N45.run_fit hu h e) c
  have hdp : ∀ q, 0 < Arb.depth (N45.allEdges C) q ↔ 0 < p.depth q := by
    intro q
    rw [N45.depth_all k2.srt k2.closed, k1.depth, hd, g.depth]
    unfold BooleanOp.ind
    by_cases hq : 0 < p.depth q <;> simp [hq]
  have hv' : ∀ x, x ∈ u.data.map Prod.fst ↔ Arb.Vertex (evs (N45.allEdges C)) x := by
    intro x
    rw [k2.der.vtx x, ← cmp_pts k1 x, List.mem_map]
  unfold extents45
  rw [c]
  dsimp only
  by_cases hne : u.data = []
  · left
    refine ⟨by unfold Set45.S45.empty; rw [hne]; rfl, fun q hq => ?_⟩
    rw [← hdp, N45.depth_all k2.srt k2.closed, k1.depth, hne] at hq
    simp [Spec.Deg45.depth] at hq
  · right; left
    rw [if_neg (by unfold Set45.S45.empty; simpa using hne)]
    refine ⟨_, rfl, ?_, ?_⟩
    · have : N45.allEdges C ≠ [] := by
        intro h0
        obtain ⟨a, ha⟩ := List.exists_mem_of_ne_nil _ hne
        obtain ⟨f, hf, -⟩ := (hv' a.1).1 (List.mem_map_of_mem ha)
        rw [h0] at hf
        simp [evs, Arb.Has] at hf
      obtain ⟨q, hq⟩ := k2.clean.covers this
      exact ⟨q, (hdp q).1 hq⟩
    · have := k2.clean.extents hv' (fold_widen_nil (lo := umin) (hi := umax) (by simpa using hne) (by
        intro x hx
        have := k2.clean.limit (x1 := umin) (y1 := umin) (x2 := umax) (y2 := umax) (fun q hq => by
          by_contra hn
          have := Set45.depth_box hv.closed (lo := umin) (hi := umax) (fun v hv' hn' => ⟨⟨(hv.range v hv').1, ((hv.range v hv').2 hn').1⟩, ((hv.range v hv').2 hn').2⟩) (q := q) (by
            by_contra hm
            push Not at hm
            exact hn ⟨⟨hm.1, hm.2.1⟩, hm.2.2⟩)
          rw [N45.depth_all k2.srt k2.closed, k1.depth, this] at hq
          omega) ((hv' x).1 hx)
        exact_mod_cast this))
      simpa only [hdp] using this

example : (match exP.run (-100) 100 with | .ok s => extents45 (-100) 100 s | _ => .undefined) = .box (some ⟨⟨1, 8⟩, ⟨0, 7⟩⟩) := by decide +kernel

example : ∃ s, exP.run (-100) 100 = .ok s ∧ ∃ r, extents45 (-100) 100 s = .box (some r) := by
  have h : (match exP.run (-100) 100 with | .ok s => extents45 (-100) 100 s | _ => .undefined) = .box (some ⟨⟨1, 8⟩, ⟨0, 7⟩⟩) := by decide +kernel
  rcases e : exP.run (-100) 100 with s | _ | _ <;> rw [e] at h
  · exact ⟨s, rfl, _, h⟩
  · simp at h
  · simp at h

/-! ### Polygons -/

/-- C93: the extents of a polygon. -/
theorem C93_polygon (P : List (Int × Int)) :
    (polyExtents P = none ↔ P = []) ∧
    ∀ r, polyExtents P = some r → Tight (fun q => ∃ p ∈ P, q = ((p.1 : ℚ), (p.2 : ℚ))) r ∧
      (∀ q, windAt P q ≠ 0 → (r.h.lo ≤ q.1 ∧ q.1 ≤ r.h.hi) ∧ r.v.lo ≤ q.2 ∧ q.2 ≤ r.v.hi) ∧
      ((r.h.lo ≤ (polyCenter P).1 ∧ (polyCenter P).1 ≤ r.h.hi) ∧ r.v.lo ≤ (polyCenter P).2 ∧ (polyCenter P).2 ≤ r.v.hi) ∧
      |2 * (polyCenter P).1 - (r.h.lo + r.h.hi)| ≤ 1 ∧ |2 * (polyCenter P).2 - (r.v.lo + r.v.hi)| ≤ 1 := by
  by_cases hne : P = []
  · subst hne
    exact ⟨by simp [polyExtents], fun r hr => by simp [polyExtents] at hr⟩
  · obtain ⟨r, h1, h2⟩ := fold_points_nil hne
    rw [h1]
    refine ⟨by simp [hne], fun r' hr => ?_⟩
    injection hr with hr
    subst hr
    have o1 : r.h.lo ≤ r.h.hi ∧ r.v.lo ≤ r.v.hi := by
      obtain ⟨v, hv, _⟩ := h2.xl
      have := h2.box v hv
      omega
    obtain ⟨c1, c2, c3⟩ := Properties.Interval.C21_center r.h o1.1
    obtain ⟨c4, c5, c6⟩ := Properties.Interval.C21_center r.v o1.2
    have hc : polyCenter P = (Interval.center r.h, Interval.center r.v) := by unfold polyCenter; rw [h1]; rfl
    rw [hc]
    refine ⟨⟨?_, ?_⟩, fun q hq => wind_inside h2.box hq, ⟨⟨c1, c2⟩, c4, c5⟩, c3, c6⟩
    · rintro q ⟨p, hp, rfl⟩
      obtain ⟨⟨b1, b2⟩, b3, b4⟩ := h2.box p hp
      dsimp only
      exact ⟨⟨by exact_mod_cast b1, by exact_mod_cast b2⟩, by exact_mod_cast b3, by exact_mod_cast b4⟩
    · intro x1 y1 x2 y2 hb
      obtain ⟨v1, m1, a1⟩ := h2.xl
      obtain ⟨v2, m2, a2⟩ := h2.xh
      obtain ⟨v3, m3, a3⟩ := h2.yl
      obtain ⟨v4, m4, a4⟩ := h2.yh
      rw [← a1, ← a2, ← a3, ← a4]
      exact ⟨⟨(hb _ ⟨v1, m1, rfl⟩).1.1, (hb _ ⟨v2, m2, rfl⟩).1.2⟩, (hb _ ⟨v3, m3, rfl⟩).2.1, (hb _ ⟨v4, m4, rfl⟩).2.2⟩

example : polyExtents [(0, 0), (6, -2), (2, 5)] = some ⟨⟨0, 6⟩, ⟨-2, 5⟩⟩ ∧ polyCenter [(0, 0), (6, -2), (2, 5)] = (3, 1) ∧
    windAt [(0, 0), (6, -2), (2, 5)] (2, 2) = 1 := by decide +kernel

end Verif.Properties.Extents
