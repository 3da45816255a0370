import Verif.Proofs.FrGet
import Verif.Properties.RoundTrip
/-!
# C91: the polygons without holes of a 45-degree set
-/
namespace Verif.Properties.Frac45
open Verif.Deg45 Verif.Set45 Verif.Spec.Deg45 Verif.Frac45
open Verif.Spec (shoelace)
open Verif.Spec.Arb (Ring sides windAt Proper)
open Verif.Properties.Form45 (framed board)
open Verif.Properties.RoundTrip (signedArea rebuild rebuild_depth rebuild_ok ring_poly45 total_objects)
open Verif.Properties.ArbForm (rings)
open Verif.Properties.Deg45 (exP exP_ok exP_even)

variable {umin umax : Int}

/-- What the outlines of polygons without holes have to be: closed, of at least three sides, all sides horizontal, vertical or at 45 degrees; each
outline winds at most once around a point, counterclockwise, and it winds around some point. -/
def Simple (l : List (Int × Int)) : Prop :=
  Ring l ∧ 3 ≤ (sides l).length ∧ (∀ a ∈ sides l, Octant a) ∧ (∀ q, windAt l q = 0 ∨ windAt l q = 1) ∧ ∃ q, windAt l q = 1

/-- C91: whatever set a program has built, asking it for polygons without holes gives outlines that are closed, run counterclockwise in at
least three sides that are horizontal, vertical or at 45 degrees, also where a hole is cut open, and wind at most once around a point. The windings of
all outlines around a point add up to one if the set covers the point, and to zero if it does not: the point is inside exactly one polygon or in none. The only
other outcome is the exception of the scanline for crossings off the grid, which is met only if the coordinates of a polygon with
diagonal edges are not even or odd together. -/
theorem C91_polygons (hu : umin ≤ umax) {p : Prog} (h : p.Ok umin umax) {s : S45} (e : p.run umin umax = .ok s) :
    (∃ out, get umin umax s = .polys out ∧ (∀ l ∈ out, Simple l) ∧ ∀ q, (out.map (fun l => windAt l q)).sum = if 0 < p.depth q then 1 else 0) ∨
    (get umin umax s = .fail .precision ∧ ¬ p.Even) := by
  rcases run_spec hu h with ⟨v, e', g⟩ | ⟨e', -⟩
  · rw [e] at e'; injection e' with e'; subst e'
    rcases Fr.get_spec hu g.valid (N45.run_fit hu h e) with ⟨out, h1, h2, h3⟩ | ⟨h1, h2⟩
    · refine Or.inl ⟨out, h1, fun l hl => ⟨(h2 l hl).1, (h2 l hl).2.1, fun a ha => ?_, (h2 l hl).2.2.2⟩, fun q => by rw [← g.depth]; exact h3 q⟩
      have := (h2 l hl).2.2.1 a ha
      unfold F45.Oct2 at this
      unfold Octant
      omega
    · exact Or.inr ⟨h1, fun he => h2 (g.even he)⟩
  · rw [e] at e'; simp at e'

/-- What the program's set is turned into. -/
def outlinesOf (p : Prog) : Option (List (List (Int × Int))) :=
  match p.run (-100) 100 with
  | .ok s => (match get (-100) 100 s with | .polys o => some o | _ => none)
  | _ => none

/-- The square around the ring is cut from the corner of its hole at (10, 6) up to (10, 12). -/
example : framed.Ok (-100) 100 ∧ outlinesOf framed = some [[(8, 6), (6, 8), (4, 6), (6, 4), (8, 6)],
    [(12, 12), (10, 12), (10, 6), (6, 2), (2, 6), (6, 10), (10, 6), (10, 12), (0, 12), (0, 0), (12, 0), (12, 12)]] := by decide +kernel

/-- C91: if the coordinates of every inserted polygon with diagonal edges are even or odd together, the polygons are always obtained: neither
the operations nor the formation fail, and nothing is undefined. -/
theorem C91_polygons_even (hu : umin ≤ umax) {p : Prog} (h : p.Ok umin umax) (he : p.Even) :
    ∃ s out, p.run umin umax = .ok s ∧ get umin umax s = .polys out ∧ (∀ l ∈ out, Simple l) ∧
      ∀ q, (out.map (fun l => windAt l q)).sum = if 0 < p.depth q then 1 else 0 := by
  rcases run_spec hu h with ⟨s, e, -⟩ | ⟨-, ne⟩
  · rcases C91_polygons hu h e with ⟨out, h1⟩ | ⟨-, ne⟩
    · exact ⟨s, out, e, h1⟩
    · exact absurd he ne
  · exact absurd he ne

example : ∃ s out, exP.run (-100) 100 = .ok s ∧ get (-100) 100 s = .polys out ∧ (∀ l ∈ out, Simple l) ∧
    ∀ q, (out.map (fun l => windAt l q)).sum = if 0 < exP.depth q then 1 else 0 :=
  C91_polygons_even (by norm_num) exP_ok exP_even

theorem Simple.proper {l : List (Int × Int)} (h : Simple l) : Proper l [] := by
  obtain ⟨-, -, -, h4, q, h5⟩ := h
  exact ⟨h4, by simp, by simpa using h4, fun l' hl' => ⟨q, by rw [List.mem_singleton.1 hl', h5]; decide⟩⟩

/-- The outlines as polygons with no holes. -/
def whole (out : List (List (Int × Int))) : List ArbForm.Poly := out.map (fun l => ⟨l, []⟩)

theorem rings_whole (out : List (List (Int × Int))) : rings (whole out) = out := by
  unfold rings whole
  rw [List.flatMap_map]
  simp

theorem whole_proper {out : List (List (Int × Int))} (h : ∀ l ∈ out, Simple l) : ∀ P ∈ whole out, Proper P.outer P.holes := by
  intro P hP
  obtain ⟨l, hl, rfl⟩ := List.mem_map.1 hP
  exact (h l hl).proper

/-- C91: the two ways of reading a set go together. The polygons with holes are obtained exactly if those without are, and the total of their signed areas is
the same, that of the set. `winding` tells that every outline runs counterclockwise. -/
theorem C91_with_and_without (hu : umin ≤ umax) {p : Prog} (h : p.Ok umin umax) {s : S45} (e : p.run umin umax = .ok s) :
    ((∃ out, get umin umax s = .polys out) ↔ ∃ out, Form45.get umin umax s = .polys out) ∧
    ∀ {out with_holes}, get umin umax s = .polys out → Form45.get umin umax s = .polys with_holes →
      (∀ l ∈ out, Polygon.windingQ l = Isotropy.HIGH ∧ 0 < shoelace l) ∧ SetArea.sumAreas with_holes = signedArea out ∧
      ∀ q, (out.map (fun l => windAt l q)).sum = ((rings with_holes).map (fun l => windAt l q)).sum := by
  have key : ∀ {a b}, get umin umax s = a → Form45.get umin umax s = b → ((∃ o, a = .polys o) ↔ ∃ o, b = .polys o) := by
    intro a b h1 h2
    have ha := C91_polygons hu h e
    have hb := Form45.C89_polygons hu h e
    have : (get umin umax s = .fail .precision ↔ Form45.get umin umax s = .fail .precision) := by
      unfold Frac45.get Form45.get at *
      rcases hc : s.clean umin umax with t | x | y <;> simp only [hc] at ha hb ⊢
      · rcases ha with ⟨o, h1, -⟩ | ⟨h1, -⟩ <;> rcases hb with ⟨o', h2, -⟩ | ⟨h2, -⟩ <;> rw [h1, h2] <;> simp
        · rcases hf : Form45.form t.data with _ | _ <;> rw [hf] at h2 <;> simp at h2
        · rcases hf : form t.data with _ | _ <;> rw [hf] at h1 <;> simp at h1
      · simp
      · simp
    rcases ha with ⟨o, g1, -⟩ | ⟨g1, -⟩ <;> rcases hb with ⟨o', g2, -⟩ | ⟨g2, -⟩
    · rw [← h1, ← h2, g1, g2]; simp
    · rw [this.2 g2] at g1; simp at g1
    · rw [this.1 g1] at g2; simp at g2
    · rw [← h1, ← h2, g1, g2]; simp
  refine ⟨key rfl rfl, fun {out w} g1 g2 => ?_⟩
  rcases C91_polygons hu h e with ⟨o, h1, h2, h3⟩ | ⟨h1, -⟩
  · rcases Form45.C89_polygons hu h e with ⟨o', h1', h2', h3', h4'⟩ | ⟨h1', -⟩
    · rw [g1] at h1; injection h1 with h1; subst h1
      rw [g2] at h1'; injection h1' with h1'; subst h1'
      have eq : ∀ q, (out.map (fun l => windAt l q)).sum = ((rings w).map (fun l => windAt l q)).sum := fun q => by rw [h3]; exact (h4' q).symm
      refine ⟨fun l hl => ?_, (RoundTrip.C90_area w h3' out).1 eq, eq⟩
      have := RoundTrip.C90_winding (h2 l hl).proper
      exact ⟨this.1, this.2.2.1⟩
    · rw [g2] at h1'; simp at h1'
  · rw [g1] at h1; simp at h1

example : (outlinesOf framed).map signedArea = some 120 ∧ (Form45.polysOf framed).map SetArea.sumAreas = some 120 := by decide +kernel

/-- C91: the polygons without holes of a set, inserted into a new set, make a set that covers the same points, each once. The outlines are proper
input again if their vertices fit the coordinate type. -/
theorem C91_round_trip (hu : umin ≤ umax) {p : Prog} (h : p.Ok umin umax) {s : S45} (e : p.run umin umax = .ok s)
    {out : List (List (Int × Int))} (g : get umin umax s = .polys out) :
    (∀ q, (rebuild (whole out)).depth q = if 0 < p.depth q then 1 else 0) ∧
    ((∀ l ∈ out, ∀ v ∈ l, (umin ≤ v.1 ∧ v.1 ≤ umax) ∧ umin ≤ v.2 ∧ v.2 ≤ umax) → (rebuild (whole out)).Ok umin umax) := by
  rcases C91_polygons hu h e with ⟨o, h1, h2, h3⟩ | ⟨h1, _⟩
  · rw [g] at h1
    injection h1 with h1
    subst h1
    refine ⟨fun q => by rw [rebuild_depth, total_objects (whole_proper h2), rings_whole, h3], fun hb => rebuild_ok _ (fun l hl => ?_)⟩
    rw [rings_whole] at hl
    exact ⟨ring_poly45 (h2 l hl).1 (h2 l hl).2.2.1, hb l hl⟩
  · rw [g] at h1; simp at h1

example : (outlinesOf framed).map (fun out => ([(1, 1), (6, 3), (6, 6), (10, 9), (13, 1)] : List (ℚ × ℚ)).map (fun q => (rebuild (whole out)).depth q)) = some [1, 0, 1, 1, 0] ∧
    (outlinesOf framed).map (fun out => decide ((rebuild (whole out)).Ok (-100) 100)) = some true := by decide +kernel

end Verif.Properties.Frac45
