import Verif.Model.Cut
import Verif.Model.ScaleDown
import Verif.Spec.ScaleDown
import Verif.Proofs.ScaleDown
import Verif.Proofs.CutPoint
import Verif.Proofs.ArbInsert
import Verif.Proofs.CutNear
import Verif.Properties.Cut
/-!
# C103: `scale_down` of polygons and sets at any angle
-/
namespace Verif.Properties.ScaleDown
open Verif Verif.Arb Verif.Cut Verif.ScaleDown Verif.PolySet Verif.Spec.Arb
open Verif.Spec hiding depth

/-- C103: the polygon with rounded vertices winds around every point half a unit away from its sides, drawn at the smaller scale, as often as the polygon
winds around the corresponding point. -/
theorem C103_polygon (f : Int) (hf : 0 < f) (P : List (Int × Int)) (q : ℚ × ℚ) (h : Away f (edges P) q) :
    windAt (scalePts f P) q = windAt P (q.1 * f, q.2 * f) := by
  have := WindMap.wind_of (P := P) (q := (q.1 * f, q.2 * f)) (q' := q) (g := fun p => (down f p.1, down f p.2)) (c := 1) (swept f q) (fun e he => by
    rw [one_mul]; exact crossing_moved hf (h e he))
  rw [one_mul] at this
  exact this

/-- C103: the same for every outline of a polygon with holes, and no hole is lost. -/
theorem C103_holes (f : Int) (hf : 0 < f) (P : ArbForm.Poly) (q : ℚ × ℚ) (h : ∀ l ∈ P.outer :: P.holes, Away f (edges l) q) :
    windAt (scalePoly f P).outer q = windAt P.outer (q.1 * f, q.2 * f) ∧
    (scalePoly f P).holes.map (fun l => windAt l q) = P.holes.map (fun l => windAt l (q.1 * f, q.2 * f)) := by
  refine ⟨C103_polygon f hf _ q (h _ List.mem_cons_self), ?_⟩
  show (P.holes.map (scalePts f)).map _ = _
  rw [List.map_map]
  exact List.map_congr_left (fun l hl => C103_polygon f hf l q (h l (List.mem_cons_of_mem _ hl)))

/-- C103: the edges of a set with rounded ends are closed curves again, and the depth is the same everywhere but near the boundary. -/
theorem C103_set (f : Int) (hf : 0 < f) (D : Data) (hd : ∀ e ∈ D, Directed e.1) (hD : Closed D) :
    Closed (scaleSet f D) ∧ ∀ q, Away f (D.map Prod.fst) q → depth (scaleSet f D) q = depth D (q.1 * f, q.2 * f) := by
  refine ⟨scaleDown_closed _ hD, fun q h => scale_depth hf (fun e he => ?_) hD h⟩
  have := hd e he
  unfold Spec.Arb.Directed at this
  omega

/-! ### Edges that point downwards -/

theorem scale_mem {f : Int} {D : Data} {a : HE × Int} (h : a ∈ scaleSet f D) :
    ∃ e ∈ D, a.1 = ((down f e.1.1.1, down f e.1.1.2), (down f e.1.2.1, down f e.1.2.2)) := by
  obtain ⟨e, he, rfl⟩ := List.mem_map.1 h
  refine ⟨e, he, ?_⟩
  dsimp only
  split_ifs <;> rfl

theorem stored_depth {S : Data} (h : ∀ e ∈ S, e.1.1.1 ≤ e.1.2.1) (q : ℚ × ℚ) : depth (S.map store) q = depth S q := by
  unfold Spec.Arb.depth
  rw [List.map_map]
  congr 1
  apply List.map_congr_left
  intro e he
  have := h e he
  simp only [Function.comp]
  by_cases c : Contains.lessPoint e.1.2 e.1.1 = true
  · have hs : store e = ((e.1.2, e.1.1), e.2 * -1) := by unfold store; rw [if_pos c]
    rw [PolySet.lessPoint_iff] at c
    have hv : e.1.1.1 = e.1.2.1 := by omega
    rw [hs, if_neg, if_neg]
    · rintro ⟨h1, h2, _⟩; rw [hv] at h1; linarith
    · rintro ⟨h1, h2, _⟩; dsimp only at h1 h2; rw [hv] at h2; linarith
  · have hs : store e = e := by unfold store; rw [if_neg c]
    rw [hs]

theorem stored_closed {S : Data} (h : Closed S) : Closed (S.map store) := by
  intro v
  rw [List.map_map, show (fun e => inflow e v) ∘ store = (fun e => inflow e v) from funext (fun e => store_inflow e v)]
  exact h v

theorem insert_stored (S : Data) : insertSet [] S false = S.map store := by
  have : ∀ (S D : Data), insertSet D S false = D ++ S.map store := by
    intro S
    induction S with
    | nil => intro D; simp [insertSet]
    | cons e S ih =>
      intro D
      show insertSet (insertClean D e false) S false = _
      rw [ih, insertClean_false, List.append_assoc]; rfl
  rw [this, List.nil_append]

theorem tag_stored (k : Int) (S : Data) : tag k (S.map store) = (tag k S).map ArbMerge.nrmEv := by
  unfold tag
  rw [List.map_map, List.map_map]
  rfl

theorem execute_stored (fp : FP) (op : Nat) (umin umax : Int) (A B : Data) :
    execute fp op umin umax (A.map store) (B.map store) = execute fp op umin umax A B := by
  unfold execute
  dsimp only
  rw [tag_stored, tag_stored, ← List.map_append, ArbMerge.cut_nrm, List.isEmpty_map]

theorem on_stored {e : HE × Int} {z : ℚ × ℚ} (h : OnEdge (store e).1 z) : OnEdge e.1 z := by
  unfold store at h
  split_ifs at h
  · obtain ⟨t, t0, t1, h1, h2⟩ := h
    dsimp only at h1 h2
    exact ⟨1 - t, by linarith, by linarith, by rw [h1]; ring, by rw [h2]; ring⟩
  · exact h

/-- A point that no edge comes near to, drawn at the smaller scale, is clear of the rounded edges. -/
theorem clear_scaled {f : Int} (hf : 0 < f) {D : Data} {q : ℚ × ℚ} (h : ∀ e ∈ D, ¬ Meets f (1 / 2) (3 / 2) e.1 q) : Clear (((scaleSet f D).map store).map Prod.fst) q := by
  intro a ha z hz hc
  obtain ⟨b, hb, rfl⟩ := List.mem_map.1 ha
  obtain ⟨c, hc', rfl⟩ := List.mem_map.1 hb
  have hz := on_stored hz
  obtain ⟨e, he, h2⟩ := scale_mem hc'
  rw [h2] at hz
  obtain ⟨t, t0, t1, z1, z2⟩ := hz
  dsimp only at z1 z2
  have hf' : (f : ℚ) ≠ 0 := by exact_mod_cast hf.ne'
  have e1 : ((e.1.1.1 : ℚ) + t * (e.1.2.1 - e.1.1.1)) / f = (1 - t) * (e.1.1.1 / f) + t * (e.1.2.1 / f) := by field_simp; ring
  have e2 : ((e.1.1.2 : ℚ) + t * (e.1.2.2 - e.1.1.2)) / f = (1 - t) * (e.1.1.2 / f) + t * (e.1.2.2 / f) := by field_simp; ring
  have t1' : 0 ≤ 1 - t := by linarith
  have n1 := down_near f e.1.1.1
  have n2 := down_near f e.1.1.2
  have n3 := down_near f e.1.2.1
  have n4 := down_near f e.1.2.2
  refine h e he ⟨(e.1.1.1 + t * (e.1.2.1 - e.1.1.1), e.1.1.2 + t * (e.1.2.2 - e.1.1.2)), ⟨t, t0, t1, rfl, rfl⟩, ?_⟩
  dsimp only
  rw [e1, e2]
  have m1 := mul_le_mul_of_nonneg_left n1.1 t1'
  have m2 := mul_le_mul_of_nonneg_left n1.2 t1'
  have m3 := mul_le_mul_of_nonneg_left n3.1 t0
  have m4 := mul_le_mul_of_nonneg_left n3.2 t0
  have m5 := mul_le_mul_of_nonneg_left n2.1 t1'
  have m6 := mul_le_mul_of_nonneg_left n2.2 t1'
  have m7 := mul_le_mul_of_nonneg_left n4.1 t0
  have m8 := mul_le_mul_of_nonneg_left n4.2 t0
  refine ⟨?_, ?_, ?_, ?_⟩
  · nlinarith [hc.1]
  · nlinarith [hc.2.1]
  · nlinarith [hc.2.2.1]
  · nlinarith [hc.2.2.2]

theorem meets_wider {f : Int} {e : Edge} {q : ℚ × ℚ} (h : Meets f (1 / 2) (1 / 2) e q) : Meets f (1 / 2) (3 / 2) e q := by
  obtain ⟨z, hz, a, b, c, d⟩ := h
  exact ⟨z, hz, a, by linarith, c, by linarith⟩

/-- C103: operations on sets that were scaled down. At every point that the boundaries, drawn at the smaller scale, do not come near to the result is that
of the operation on the sets themselves at the corresponding point. Edges whose two ends become one point are no
exception. -/
theorem C103_boolean (fp : FP) (hfp : fp.Floor) (op : Nat) (umin umax f : Int) (hf : 0 < f) (A B : Data) (hd : ∀ e ∈ A ++ B, Directed e.1)
    (hu : ∀ e ∈ A ++ B, umin ≤ min (down f e.1.1.2) (down f e.1.2.2)) (hA : Closed A) (hB : Closed B) :
    ∃ out, boolOp fp op umin umax (scaleSet f A) (scaleSet f B) = some out ∧ execute fp op umin umax (scaleSet f A) (scaleSet f B) = some out ∧
      (∀ q, (∀ e ∈ A ++ B, ¬ Meets f (1 / 2) (3 / 2) e.1 q) →
        depth out q = if inResult op (depth A (q.1 * f, q.2 * f) > 0) (depth B (q.1 * f, q.2 * f) > 0) then 1 else 0) ∧
      (∀ a ∈ out, Directed a.1 ∧ (a.2 = 1 ∨ a.2 = -1)) ∧ (out.map Prod.fst).Nodup ∧ Planar (out.map Prod.fst) ∧ Closed out := by
  have mono : ∀ D : Data, (∀ e ∈ D, Directed e.1) → ∀ a ∈ scaleSet f D, a.1.1.1 ≤ a.1.2.1 := by
    intro D hD a ha
    obtain ⟨e, he, h⟩ := scale_mem ha
    rw [h]
    have := hD e he
    unfold Spec.Arb.Directed at this
    exact down_mono hf (by omega)
  have hdA : ∀ e ∈ A, Directed e.1 := fun e he => hd e (List.mem_append_left _ he)
  have hdB : ∀ e ∈ B, Directed e.1 := fun e he => hd e (List.mem_append_right _ he)
  have hall : ∀ x ∈ (scaleSet f A).map store ++ (scaleSet f B).map store, ∃ a, x = store a ∧ ∃ e ∈ A ++ B, a.1 = ((down f e.1.1.1, down f e.1.1.2), (down f e.1.2.1, down f e.1.2.2)) := by
    intro x hx
    rcases List.mem_append.1 hx with g | g
    · obtain ⟨a, ha, rfl⟩ := List.mem_map.1 g
      obtain ⟨e, he, h⟩ := scale_mem ha
      exact ⟨a, rfl, e, List.mem_append_left _ he, h⟩
    · obtain ⟨a, ha, rfl⟩ := List.mem_map.1 g
      obtain ⟨e, he, h⟩ := scale_mem ha
      exact ⟨a, rfl, e, List.mem_append_right _ he, h⟩
  obtain ⟨out, o1, o2, o3, o4, o5, o6, _⟩ := execute_snap_w hfp (umin := umin) umax op (A := (scaleSet f A).map store) (B := (scaleSet f B).map store)
    (by
      intro x hx
      obtain ⟨a, rfl, e, he, h⟩ := hall x hx
      by_cases c : a.1.1 = a.1.2
      · right
        unfold store
        split_ifs
        · exact c.symm
        · exact c
      · exact Or.inl (store_directed c))
    (by
      intro x hx
      obtain ⟨a, rfl, e, he, h⟩ := hall x hx
      have := hu e he
      unfold store
      split_ifs
      · dsimp only; rw [h]; dsimp only; rw [min_comm]; exact this
      · rw [h]; exact this)
    (stored_closed (scaleDown_closed _ hA)) (stored_closed (scaleDown_closed _ hB))
  have o1' := o1
  rw [execute_stored] at o1'
  refine ⟨out, ?_, o1', fun q hq => ?_, fun a ha => ⟨(o3 a ha).1, (o3 a ha).2.2.2.2⟩, o4, o5, o6⟩
  · unfold boolOp
    rw [insert_stored, insert_stored]
    exact o1
  · have hqA : ∀ e ∈ A, ¬ Meets f (1 / 2) (3 / 2) e.1 q := fun e he => hq e (List.mem_append_left _ he)
    have hqB : ∀ e ∈ B, ¬ Meets f (1 / 2) (3 / 2) e.1 q := fun e he => hq e (List.mem_append_right _ he)
    have far : ∀ D : Data, (∀ e ∈ D, ¬ Meets f (1 / 2) (3 / 2) e.1 q) → Away f (D.map Prod.fst) q := by
      intro D hD e he
      obtain ⟨a, ha, rfl⟩ := List.mem_map.1 he
      exact fun g => hD a ha (meets_wider g)
    rw [o2 q, stored_depth (mono A hdA), stored_depth (mono B hdB), (C103_set f hf A hdA hA).2 q (far A hqA), (C103_set f hf B hdB hB).2 q (far B hqB)]
    intro e he z hz
    rw [List.map_append] at he
    rcases List.mem_append.1 he with g | g
    · exact clear_scaled hf hqA e g z hz
    · exact clear_scaled hf hqB e g z hz

/-- C103: the cleaning that follows, in whatever order sorting leaves the edges. -/
theorem C103_clean (fp : FP) (hfp : fp.Floor) (umin umax f : Int) (hf : 0 < f) (D D' : Data) (hp : D'.Perm D) (hd : ∀ e ∈ D, Directed e.1)
    (hu : ∀ e ∈ D, umin ≤ min (down f e.1.1.2) (down f e.1.2.2)) (hD : Closed D) :
    ∃ out, clean fp umin umax (scaleSet f D') = some out ∧
      (∀ q, (∀ e ∈ D, ¬ Meets f (1 / 2) (3 / 2) e.1 q) → depth out q = if depth D (q.1 * f, q.2 * f) > 0 then 1 else 0) ∧
      (∀ a ∈ out, Directed a.1 ∧ (a.2 = 1 ∨ a.2 = -1)) ∧ (out.map Prod.fst).Nodup ∧ Planar (out.map Prod.fst) ∧ Closed out := by
  have hm : ∀ e ∈ D' ++ [], e ∈ D := by intro e he; rw [List.append_nil] at he; exact hp.mem_iff.1 he
  obtain ⟨out, _, o1, o2, o3⟩ := C103_boolean fp hfp 0 umin umax f hf D' [] (fun e he => hd e (hm e he)) 
    (fun e he => hu e (hm e he)) (fun v => by rw [(hp.map _).sum_eq]; exact hD v) (fun v => rfl)
  refine ⟨out, o1, fun q hq => ?_, o3⟩
  rw [o2 q (fun e he => hq e (hm e he))]
  have e1 : depth D' (q.1 * f, q.2 * f) = depth D (q.1 * f, q.2 * f) := (hp.map _).sum_eq
  have e2 : ¬ depth [] (q.1 * f, q.2 * f) > 0 := by unfold Spec.Arb.depth; simp
  rw [e1]
  by_cases c : depth D (q.1 * f, q.2 * f) > 0
  · rw [if_pos c, if_pos (show inResult 0 _ _ from Or.inl c)]
  · rw [if_neg c, if_neg]
    rintro (g | g)
    exacts [c g, e2 g]

/-- A triangle scaled down by ten; its steep side becomes a vertical edge that points downwards. -/
def steep : Data := Properties.Cut.build [(([(0, 90), (2, 0), (81, 44)], []), false)]

example : steep = [(((0, 90), (2, 0)), 1), (((2, 0), (81, 44)), 1), (((0, 90), (81, 44)), -1)] ∧
    scaleSet 10 steep = [(((0, 9), (0, 0)), -1), (((0, 0), (8, 4)), 1), (((0, 9), (8, 4)), -1)] ∧
    (∀ e ∈ steep, Directed e.1) ∧ (∀ e ∈ steep, down 10 e.1.1.1 ≠ down 10 e.1.2.1 ∨ down 10 e.1.1.2 ≠ down 10 e.1.2.2) ∧
    (∀ e ∈ steep, (-100 : Int) ≤ min (down 10 e.1.1.2) (down 10 e.1.2.2)) ∧
    (clean exactFP (-100) 100 (scaleSet 10 steep)).map (fun o => depth o (3, 3)) = some 1 ∧ depth steep (30, 30) = 1 := by decide +kernel

/-- A point the theorems speak of. -/
example : ∀ e ∈ steep, ¬ Meets 10 (1 / 2) (3 / 2) e.1 (3, 3) := by
  have h : steep = [(((0, 90), (2, 0)), 1), (((2, 0), (81, 44)), 1), (((0, 90), (81, 44)), -1)] := by decide +kernel
  rw [h]
  intro e he
  simp only [List.mem_cons, List.not_mem_nil, or_false] at he
  rcases he with rfl | rfl | rfl <;> rintro ⟨z, ⟨t, t0, t1, h1, h2⟩, a, b, c, d⟩ <;> rw [h1] at a b <;> rw [h2] at c d <;> norm_num at a b c d <;> linarith

/-- An edge whose ends become one point. -/
example : (clean exactFP (-100) 100 (scaleSet 10 (Properties.Cut.build [(([(0, 0), (2, 1), (81, 44), (0, 90)], []), false)]))).map (fun o => depth o (3, 3)) = some 1 := by
  decide +kernel

end Verif.Properties.ScaleDown
