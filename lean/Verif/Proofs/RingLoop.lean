import Verif.Proofs.Loop
import Verif.Proofs.FormProper
/-!
# The winding number of a closed outline as the number of a curve
-/
namespace Verif.Loop
open Verif.Spec Verif.Spec.Arb

/-- A grid point as a rational point. -/
def qp (v : Int × Int) : ℚ × ℚ := ((v.1 : ℚ), (v.2 : ℚ))

theorem onEdge_seg (e : Edge) (q : ℚ × ℚ) : OnEdge e q ↔ OnSeg (qp e.1, qp e.2) q :=
  exists_congr fun t => and_congr_right fun _ => and_congr_right fun _ => (Prod.ext_iff (x := q) (y := at' (qp e.1) (qp e.2) t)).symm

theorem onEdge_lineY {e : Edge} (h : e.1.1 ≠ e.2.1) {x : ℚ} (hx : ((e.1.1 : ℚ) ≤ x ∧ x ≤ e.2.1) ∨ ((e.2.1 : ℚ) ≤ x ∧ x ≤ e.1.1)) :
    OnEdge e (x, lineY e.1 e.2 x) := by
  have hne : ((e.2.1 : ℚ) - e.1.1) ≠ 0 := by
    intro hh; apply h; exact_mod_cast (by linarith : (e.1.1 : ℚ) = e.2.1)
  refine ⟨(x - e.1.1) / (e.2.1 - e.1.1), ?_, ?_, by simp only; field_simp; ring, by simp only [lineY]; field_simp⟩
  · rcases hx with ⟨a, b⟩ | ⟨a, b⟩
    · exact div_nonneg (by linarith) (by linarith)
    · exact div_nonneg_of_nonpos (by linarith) (by linarith)
  · rcases hx with ⟨a, b⟩ | ⟨a, b⟩
    · rw [div_le_one (lt_of_le_of_ne (by linarith) (Ne.symm hne))]; linarith
    · rw [div_le_one_of_neg (lt_of_le_of_ne (by linarith) hne)]; linarith

theorem lineY_at (u v : Int × Int) (q q' : ℚ × ℚ) (t : ℚ) : lineY u v (at' q q' t).1 = lineY u v q.1 + t * (lineY u v q'.1 - lineY u v q.1) := by
  unfold lineY at'
  simp only
  by_cases h : ((v.1 : ℚ) - u.1) = 0
  · simp [h]
  · field_simp; ring

/-- A way that does not meet the edge stays above it or below it while the edge spans it. -/
theorem ivt {e : Edge} (h : e.1.1 ≠ e.2.1) {q q' : ℚ × ℚ} (ha : ∀ t : ℚ, 0 ≤ t → t ≤ 1 → ¬ OnEdge e (at' q q' t))
    (h1 : ((e.1.1 : ℚ) ≤ q.1 ∧ q.1 ≤ e.2.1) ∨ ((e.2.1 : ℚ) ≤ q.1 ∧ q.1 ≤ e.1.1)) (h2 : ((e.1.1 : ℚ) ≤ q'.1 ∧ q'.1 ≤ e.2.1) ∨ ((e.2.1 : ℚ) ≤ q'.1 ∧ q'.1 ≤ e.1.1)) :
    lineY e.1 e.2 q.1 ≤ q.2 ↔ lineY e.1 e.2 q'.1 ≤ q'.2 := by
  have key : ∀ {t : ℚ}, 0 ≤ t → t ≤ 1 → q.2 - lineY e.1 e.2 q.1 + t * ((q'.2 - lineY e.1 e.2 q'.1) - (q.2 - lineY e.1 e.2 q.1)) ≠ 0 := by
    intro t t1 t2 h0
    apply ha t t1 t2
    have hy : (at' q q' t).2 = lineY e.1 e.2 (at' q q' t).1 := by rw [lineY_at]; simp only [at']; linarith
    have := onEdge_lineY (e := e) h (x := (at' q q' t).1) (by
      simp only [at']
      rcases h1 with ⟨a, b⟩ | ⟨a, b⟩ <;> rcases h2 with ⟨c, d⟩ | ⟨c, d⟩
      · left; constructor <;> nlinarith
      · left; constructor <;> nlinarith
      · left; constructor <;> nlinarith
      · right; constructor <;> nlinarith)
    rwa [← hy] at this
  generalize hA : q.2 - lineY e.1 e.2 q.1 = A at key
  generalize hB : q'.2 - lineY e.1 e.2 q'.1 = B at key
  rw [← sub_nonneg, hA, ← sub_nonneg (a := q'.2), hB]
  constructor
  · intro hA0
    by_contra hB0
    push Not at hB0
    exact key (t := A / (A - B)) (div_nonneg hA0 (by linarith)) (by rw [div_le_one (by linarith)]; linarith) (by
      have : A - B ≠ 0 := by linarith
      field_simp; ring)
  · intro hB0
    by_contra hA0
    push Not at hA0
    exact key (t := A / (A - B)) (div_nonneg_of_nonpos hA0.le (by linarith)) (by rw [div_le_one_of_neg (by linarith)]; linarith) (by
      have : A - B ≠ 0 := by linarith
      field_simp; ring)

/-- Vertices on the vertical line of the point and below it. -/
def under (q : ℚ × ℚ) (v : Int × Int) : Int := if (v.1 : ℚ) = q.1 ∧ (v.2 : ℚ) < q.2 then 1 else 0

theorem lineY_fst {e : Edge} : lineY e.1 e.2 e.1.1 = e.1.2 := by simp [lineY]
theorem lineY_snd {e : Edge} (h : e.1.1 ≠ e.2.1) : lineY e.1 e.2 e.2.1 = e.2.2 := by
  have hne : ((e.2.1 : ℚ) - e.1.1) ≠ 0 := by
    intro hh; apply h; exact_mod_cast (by linarith : (e.1.1 : ℚ) = e.2.1)
  unfold lineY; field_simp; ring

/-- How the crossings with one edge change on the way to the next vertex abscissa. -/
theorem step {e : Edge} {q q' : ℚ × ℚ} (hq : q.1 < q'.1) (h1 : (e.1.1 : ℚ) ≤ q.1 ∨ q'.1 ≤ e.1.1) (h2 : (e.2.1 : ℚ) ≤ q.1 ∨ q'.1 ≤ e.2.1)
    (ha : ∀ t : ℚ, 0 ≤ t → t ≤ 1 → ¬ OnEdge e (at' q q' t)) : crossing q e - crossing q' e = under q' e.2 - under q' e.1 := by
  have hend : ¬ OnEdge e q' := by have := ha 1 (by norm_num) (le_refl _); rwa [at_one] at this
  have hu : ¬ ((e.1.1 : ℚ) = q'.1 ∧ (e.1.2 : ℚ) = q'.2) := fun h => hend ⟨0, le_refl _, by norm_num, by rw [← h.1]; ring, by rw [← h.2]; ring⟩
  have hv : ¬ ((e.2.1 : ℚ) = q'.1 ∧ (e.2.2 : ℚ) = q'.2) := fun h => hend ⟨1, by norm_num, le_refl _, by rw [← h.1]; ring, by rw [← h.2]; ring⟩
  by_cases hx : e.1.1 = e.2.1
  · -- vertical
    have hx' : (e.1.1 : ℚ) = e.2.1 := by exact_mod_cast hx
    have c1 : ∀ p : ℚ × ℚ, crossing p e = 0 := by
      intro p; unfold crossing; rw [if_neg (by rw [hx']; rintro ⟨a, b, -⟩; linarith), if_neg (by rw [hx']; rintro ⟨a, b, -⟩; linarith)]
    rw [c1, c1]
    unfold under
    rw [← hx']
    by_cases hX : (e.1.1 : ℚ) = q'.1
    · have hb : ((e.1.2 : ℚ) < q'.2 ↔ (e.2.2 : ℚ) < q'.2) := by
        have hu' : (e.1.2 : ℚ) ≠ q'.2 := fun h => hu ⟨hX, h⟩
        have hv' : (e.2.2 : ℚ) ≠ q'.2 := fun h => hv ⟨by rw [← hx']; exact hX, h⟩
        by_contra hcon
        apply hend
        have hne : (e.2.2 : ℚ) - e.1.2 ≠ 0 := by
          intro h0
          have : (e.2.2 : ℚ) = e.1.2 := by linarith
          rw [this] at hcon; exact hcon Iff.rfl
        refine ⟨(q'.2 - e.1.2) / (e.2.2 - e.1.2), ?_, ?_, by rw [← hx', hX]; ring, by field_simp; ring⟩
        · by_cases g : (e.1.2 : ℚ) < q'.2
          · have g2 : ¬ (e.2.2 : ℚ) < q'.2 := fun g2 => hcon ⟨fun _ => g2, fun _ => g⟩
            exact div_nonneg (by linarith) (by push Not at g2; linarith)
          · have g2 : (e.2.2 : ℚ) < q'.2 := by by_contra g2; exact hcon ⟨fun h => absurd h g, fun h => absurd h g2⟩
            push Not at g
            exact div_nonneg_of_nonpos (by linarith) (by linarith)
        · by_cases g : (e.1.2 : ℚ) < q'.2
          · have g2 : ¬ (e.2.2 : ℚ) < q'.2 := fun g2 => hcon ⟨fun _ => g2, fun _ => g⟩
            push Not at g2
            rw [div_le_one (by linarith)]; linarith
          · have g2 : (e.2.2 : ℚ) < q'.2 := by by_contra g2; exact hcon ⟨fun h => absurd h g, fun h => absurd h g2⟩
            push Not at g
            rw [div_le_one_of_neg (by linarith)]; linarith
      simp [hX, hb]
    · simp [hX]
  · have iv := fun a b => ivt hx ha a b
    have l1 : (e.1.1 : ℚ) = q'.1 → (lineY e.1 e.2 q'.1 ≤ q'.2 ↔ (e.1.2 : ℚ) < q'.2) := by
      intro h
      rw [← h, lineY_fst]
      exact ⟨fun g => lt_of_le_of_ne g (fun g' => hu ⟨h, g'⟩), fun g => g.le⟩
    have l2 : (e.2.1 : ℚ) = q'.1 → (lineY e.1 e.2 q'.1 ≤ q'.2 ↔ (e.2.2 : ℚ) < q'.2) := by
      intro h
      rw [← h, lineY_snd hx]
      exact ⟨fun g => lt_of_le_of_ne g (fun g' => hv ⟨h, g'⟩), fun g => g.le⟩
    have hxq : (e.1.1 : ℚ) ≠ e.2.1 := by exact_mod_cast hx
    rcases h1 with h1 | h1 <;> rcases h2 with h2 | h2
    · -- entirely on the left
      unfold crossing under
      rw [if_neg (by rintro ⟨a, b, -⟩; linarith), if_neg (by rintro ⟨a, b, -⟩; linarith), if_neg (by rintro ⟨a, b, -⟩; linarith), if_neg (by rintro ⟨a, b, -⟩; linarith),
        if_neg (by rintro ⟨a, b⟩; linarith), if_neg (by rintro ⟨a, b⟩; linarith)]
    · -- to the right
      have i := iv (Or.inl ⟨h1, by linarith⟩) (Or.inl ⟨by linarith, h2⟩)
      have hu0 : under q' e.1 = 0 := by unfold under; rw [if_neg (by rintro ⟨a, b⟩; linarith)]
      rw [hu0]
      have cq : crossing q e = if lineY e.1 e.2 q.1 ≤ q.2 then 1 else 0 := by
        unfold crossing
        by_cases g : lineY e.1 e.2 q.1 ≤ q.2
        · rw [if_pos ⟨h1, by linarith, g⟩, if_pos g]
        · rw [if_neg (fun h => g h.2.2), if_neg (fun h => g h.2.2), if_neg g]
      by_cases hX : (e.2.1 : ℚ) = q'.1
      · have cq' : crossing q' e = 0 := by
          unfold crossing; rw [if_neg (by rintro ⟨a, b, -⟩; linarith), if_neg (by rintro ⟨a, b, -⟩; linarith)]
        rw [cq, cq']
        unfold under
        by_cases g : lineY e.1 e.2 q.1 ≤ q.2
        · rw [if_pos g, if_pos ⟨hX, (l2 hX).1 (i.1 g)⟩]
        · rw [if_neg g, if_neg (fun h => g (i.2 ((l2 hX).2 h.2)))]
      · have hlt : q'.1 < e.2.1 := lt_of_le_of_ne h2 (Ne.symm hX)
        have cq' : crossing q' e = if lineY e.1 e.2 q'.1 ≤ q'.2 then 1 else 0 := by
          unfold crossing
          by_cases g : lineY e.1 e.2 q'.1 ≤ q'.2
          · rw [if_pos ⟨by linarith, hlt, g⟩, if_pos g]
          · rw [if_neg (fun h => g h.2.2), if_neg (fun h => g h.2.2), if_neg g]
        have hv0 : under q' e.2 = 0 := by unfold under; rw [if_neg (fun h => hX h.1)]
        rw [cq, cq', hv0, if_congr i rfl rfl]; omega
    · -- to the left
      have i := iv (Or.inr ⟨h2, by linarith⟩) (Or.inr ⟨by linarith, h1⟩)
      have hv0 : under q' e.2 = 0 := by unfold under; rw [if_neg (by rintro ⟨a, b⟩; linarith)]
      rw [hv0]
      have cq : crossing q e = if lineY e.1 e.2 q.1 ≤ q.2 then -1 else 0 := by
        unfold crossing
        rw [if_neg (by rintro ⟨a, b, -⟩; linarith)]
        by_cases g : lineY e.1 e.2 q.1 ≤ q.2
        · rw [if_pos ⟨h2, by linarith, g⟩, if_pos g]
        · rw [if_neg (fun h => g h.2.2), if_neg g]
      by_cases hX : (e.1.1 : ℚ) = q'.1
      · have cq' : crossing q' e = 0 := by
          unfold crossing; rw [if_neg (by rintro ⟨a, b, -⟩; linarith), if_neg (by rintro ⟨a, b, -⟩; linarith)]
        rw [cq, cq']
        unfold under
        by_cases g : lineY e.1 e.2 q.1 ≤ q.2
        · rw [if_pos g, if_pos ⟨hX, (l1 hX).1 (i.1 g)⟩]; rfl
        · rw [if_neg g, if_neg (fun h => g (i.2 ((l1 hX).2 h.2)))]
      · have hlt : q'.1 < e.1.1 := lt_of_le_of_ne h1 (Ne.symm hX)
        have cq' : crossing q' e = if lineY e.1 e.2 q'.1 ≤ q'.2 then -1 else 0 := by
          unfold crossing
          rw [if_neg (by rintro ⟨a, b, -⟩; linarith)]
          by_cases g : lineY e.1 e.2 q'.1 ≤ q'.2
          · rw [if_pos ⟨by linarith, hlt, g⟩, if_pos g]
          · rw [if_neg (fun h => g h.2.2), if_neg g]
        have hu0 : under q' e.1 = 0 := by unfold under; rw [if_neg (fun h => hX h.1)]
        rw [cq, cq', hu0, if_congr i rfl rfl]; omega
    · -- entirely on the right, perhaps with one end at the abscissa
      have cq : crossing q e = 0 := by
        unfold crossing; rw [if_neg (by rintro ⟨a, b, -⟩; linarith), if_neg (by rintro ⟨a, b, -⟩; linarith)]
      rw [cq]
      rcases lt_or_gt_of_ne hxq with hl | hl
      · have hv0 : under q' e.2 = 0 := by unfold under; rw [if_neg (by rintro ⟨a, b⟩; linarith)]
        rw [hv0]
        by_cases hX : (e.1.1 : ℚ) = q'.1
        · unfold crossing under
          by_cases g : lineY e.1 e.2 q'.1 ≤ q'.2
          · rw [if_pos ⟨by linarith, by linarith, g⟩, if_pos ⟨hX, (l1 hX).1 g⟩]
          · rw [if_neg (fun h => g h.2.2), if_neg (fun h => g h.2.2), if_neg (fun h => g ((l1 hX).2 h.2))]
        · have : q'.1 < e.1.1 := lt_of_le_of_ne h1 (Ne.symm hX)
          unfold crossing under
          rw [if_neg (by rintro ⟨a, b, -⟩; linarith), if_neg (by rintro ⟨a, b, -⟩; linarith), if_neg (fun h => hX h.1)]
      · have hu0 : under q' e.1 = 0 := by unfold under; rw [if_neg (by rintro ⟨a, b⟩; linarith)]
        rw [hu0]
        by_cases hX : (e.2.1 : ℚ) = q'.1
        · unfold crossing under
          rw [if_neg (by rintro ⟨a, b, -⟩; linarith)]
          by_cases g : lineY e.1 e.2 q'.1 ≤ q'.2
          · rw [if_pos ⟨by linarith, by linarith, g⟩, if_pos ⟨hX, (l2 hX).1 g⟩]; rfl
          · rw [if_neg (fun h => g h.2.2), if_neg (fun h => g ((l2 hX).2 h.2))]
        · have : q'.1 < e.2.1 := lt_of_le_of_ne h2 (Ne.symm hX)
          unfold crossing under
          rw [if_neg (by rintro ⟨a, b, -⟩; linarith), if_neg (by rintro ⟨a, b, -⟩; linarith), if_neg (fun h => hX h.1)]

theorem step_vertical {e : Edge} {q q' : ℚ × ℚ} (hq : q.1 = q'.1) (ha : ∀ t : ℚ, 0 ≤ t → t ≤ 1 → ¬ OnEdge e (at' q q' t)) : crossing q e = crossing q' e := by
  by_cases hx : e.1.1 = e.2.1
  · have hx' : (e.1.1 : ℚ) = e.2.1 := by exact_mod_cast hx
    have c1 : ∀ p : ℚ × ℚ, crossing p e = 0 := by
      intro p; unfold crossing; rw [if_neg (by rw [hx']; rintro ⟨a, b, -⟩; linarith), if_neg (by rw [hx']; rintro ⟨a, b, -⟩; linarith)]
    rw [c1, c1]
  · have iv := fun a => ivt hx ha a (by rw [← hq]; exact a)
    unfold crossing
    by_cases g1 : (e.1.1 : ℚ) ≤ q.1 ∧ q.1 < e.2.1
    · rw [hq] at g1
      have i := iv (Or.inl (by rw [hq]; exact ⟨g1.1, g1.2.le⟩))
      rw [hq] at i ⊢
      simp only [i]
    · by_cases g2 : (e.2.1 : ℚ) ≤ q.1 ∧ q.1 < e.1.1
      · rw [hq] at g2
        have i := iv (Or.inr (by rw [hq]; exact ⟨g2.1, g2.2.le⟩))
        rw [hq] at i ⊢
        simp only [i]
      · rw [if_neg (fun h => g1 ⟨h.1, h.2.1⟩), if_neg (fun h => g2 ⟨h.1, h.2.1⟩)]
        rw [hq] at g1 g2
        rw [if_neg (fun h => g1 ⟨h.1, h.2.1⟩), if_neg (fun h => g2 ⟨h.1, h.2.1⟩)]

/-- The sum over the sides, those of length zero included. -/
theorem windAt_zip {l : List (Int × Int)} (hr : Ring l) (q : ℚ × ℚ) : windAt l q = ((l.zip l.tail).map (crossing q)).sum := by
  rw [ArbForm.windAt_sides hr, sides, ArbForm.sum_sides]

theorem telescope (f : Int × Int → Int) : ∀ (l : List (Int × Int)) (a b : Int × Int), l.head? = some a → l.getLast? = some b →
    ((l.zip l.tail).map (fun e => f e.2 - f e.1)).sum = f b - f a
  | [], _, _, h, _ => by simp at h
  | [u], a, b, h, h' => by
    obtain rfl : u = a := by simpa using h
    obtain rfl : u = b := by simpa using h'
    simp
  | u :: v :: r, a, b, h, h' => by
    obtain rfl : u = a := by simpa using h
    rw [List.tail_cons, List.zip_cons_cons, List.map_cons, List.sum_cons]
    have := telescope f (v :: r) v b (by simp) (by rw [← h']; simp)
    rw [List.tail_cons] at this
    rw [this]; ring

theorem telescope_ring {l : List (Int × Int)} (h : l.head? = l.getLast?) (f : Int × Int → Int) : ((l.zip l.tail).map (fun e => f e.2 - f e.1)).sum = 0 := by
  cases hl : l with
  | nil => simp
  | cons u r =>
    rw [← hl]
    have h1 : l.head? = some u := by rw [hl]; rfl
    rw [telescope f l u u h1 (by rw [← h, h1])]; ring

/-- The winding number does not change along a way that does not meet the outline. -/
theorem wind_const {l : List (Int × Int)} (hr : Ring l) : ∀ (n : Nat) (q q' : ℚ × ℚ), q.1 ≤ q'.1 → (l.filter (fun v => decide (q.1 < v.1 ∧ (v.1 : ℚ) < q'.1))).length = n →
    (∀ t : ℚ, 0 ≤ t → t ≤ 1 → ∀ e ∈ l.zip l.tail, ¬ OnEdge e (at' q q' t)) → windAt l q = windAt l q' := by
  intro n
  induction n using Nat.strong_induction_on with
  | _ n ih =>
    intro q q' hq hn ha
    rcases eq_or_lt_of_le hq with heq | hlt
    · rw [windAt_zip hr, windAt_zip hr]
      congr 1
      exact List.map_congr_left fun e he => step_vertical heq (fun t t1 t2 => ha t t1 t2 e he)
    · by_cases hv : ∃ v ∈ l, q.1 < v.1 ∧ (v.1 : ℚ) < q'.1
      · obtain ⟨v, hv, v1, v2⟩ := hv
        have hpos : q'.1 - q.1 ≠ 0 := by linarith
        have s0 : 0 ≤ ((v.1 : ℚ) - q.1) / (q'.1 - q.1) := div_nonneg (by linarith) (by linarith)
        have s1 : ((v.1 : ℚ) - q.1) / (q'.1 - q.1) ≤ 1 := by rw [div_le_one (by linarith)]; linarith
        have sx : (at' q q' (((v.1 : ℚ) - q.1) / (q'.1 - q.1))).1 = v.1 := by simp only [at']; field_simp; ring
        generalize ((v.1 : ℚ) - q.1) / (q'.1 - q.1) = s at s0 s1 sx
        have smaller : ∀ p p' : ℚ × ℚ, q.1 ≤ p.1 → p'.1 ≤ q'.1 → (p.1 = v.1 ∨ p'.1 = v.1) →
            (l.filter (fun v => decide (p.1 < v.1 ∧ (v.1 : ℚ) < p'.1))).length < n := by
          intro p p' h1 h2 h3
          rw [← hn]
          have e1 : l.filter (fun v => decide (p.1 < v.1 ∧ (v.1 : ℚ) < p'.1)) =
              (l.filter (fun v => decide (q.1 < v.1 ∧ (v.1 : ℚ) < q'.1))).filter (fun v => decide (p.1 < v.1 ∧ (v.1 : ℚ) < p'.1)) := by
            rw [List.filter_filter]
            apply List.filter_congr
            intro x _
            simp only [decide_eq_decide, ← Bool.decide_and]
            constructor
            · rintro ⟨a, b⟩; exact ⟨⟨a, b⟩, by linarith, by linarith⟩
            · rintro ⟨a, _⟩; exact a
          rw [e1]
          apply List.length_filter_lt_length_iff_exists.2
          refine ⟨v, List.mem_filter.2 ⟨hv, by simp [v1, v2]⟩, ?_⟩
          rw [decide_eq_true_eq]
          rintro ⟨a, b⟩
          rcases h3 with h3 | h3 <;> linarith
        rw [ih _ (smaller q (at' q q' s) (le_refl _) (by rw [sx]; linarith) (Or.inr sx)) q (at' q q' s) (by rw [sx]; linarith) rfl (fun t t1 t2 e he => by
            have := ha (0 + t * (s - 0)) (by nlinarith) (by nlinarith) e he
            rwa [← at_at, at_zero] at this),
          ih _ (smaller (at' q q' s) q' (by rw [sx]; linarith) (le_refl _) (Or.inl sx)) (at' q q' s) q' (by rw [sx]; linarith) rfl (fun t t1 t2 e he => by
            have := ha (s + t * (1 - s)) (by nlinarith) (by nlinarith) e he
            rwa [← at_at, at_one] at this)]
      · have out : ∀ v ∈ l, (v.1 : ℚ) ≤ q.1 ∨ q'.1 ≤ v.1 := by
          intro v hv'
          by_contra hcon
          push Not at hcon
          exact hv ⟨v, hv', hcon.1, hcon.2⟩
        have h0 := telescope_ring hr.2 (under q')
        have h1 : ((l.zip l.tail).map (fun e => under q' e.2 - under q' e.1)) = (l.zip l.tail).map (fun e => crossing q e - crossing q' e) := by
          apply List.map_congr_left
          intro e he
          exact (step hlt (out _ (List.of_mem_zip he).1) (out _ (List.mem_of_mem_tail (List.of_mem_zip he).2)) (fun t t1 t2 => ha t t1 t2 e he)).symm
        rw [h1] at h0
        have h2 : ∀ S : List Edge, (S.map (fun e => crossing q e - crossing q' e)).sum = (S.map (crossing q)).sum - (S.map (crossing q')).sum := by
          intro S
          induction S with
          | nil => simp
          | cons x r ih => simp only [List.map_cons, List.sum_cons, ih]; ring
        rw [h2] at h0
        rw [windAt_zip hr, windAt_zip hr]
        linarith

theorem wind_avoid {l : List (Int × Int)} (hr : Ring l) {q q' : ℚ × ℚ} (ha : ∀ t : ℚ, 0 ≤ t → t ≤ 1 → ∀ e ∈ l.zip l.tail, ¬ OnEdge e (at' q q' t)) :
    windAt l q = windAt l q' := by
  rcases le_total q.1 q'.1 with h | h
  · exact wind_const hr _ q q' h rfl ha
  · refine (wind_const hr _ q' q h rfl (fun t t1 t2 e he => ?_)).symm
    have := ha (1 + t * (0 - 1)) (by linarith) (by linarith) e he
    rwa [← at_at, at_one, at_zero] at this

/-- Outside the abscissas of its vertices an outline does not wind around a point. -/
theorem wind_far {l : List (Int × Int)} (hr : Ring l) {q : ℚ × ℚ} (h : (∀ v ∈ l, (v.1 : ℚ) < q.1) ∨ ∀ v ∈ l, q.1 < v.1) : windAt l q = 0 := by
  rw [windAt_zip hr]
  apply List.sum_eq_zero
  intro x hx
  obtain ⟨e, he, rfl⟩ := List.mem_map.1 hx
  have m1 := (List.of_mem_zip he).1
  have m2 := List.mem_of_mem_tail (List.of_mem_zip he).2
  unfold crossing
  rcases h with h | h
  · rw [if_neg (by rintro ⟨a, b, -⟩; have := h _ m2; linarith), if_neg (by rintro ⟨a, b, -⟩; have := h _ m1; linarith)]
  · rw [if_neg (by rintro ⟨a, b, -⟩; have := h _ m1; linarith), if_neg (by rintro ⟨a, b, -⟩; have := h _ m2; linarith)]

theorem bound (l : List (Int × Int)) : ∃ X : ℚ, ∀ v ∈ l, -X ≤ (v.1 : ℚ) ∧ (v.1 : ℚ) ≤ X := by
  induction l with
  | nil => exact ⟨0, by simp⟩
  | cons a r ih =>
    obtain ⟨X, hX⟩ := ih
    refine ⟨max X |(a.1 : ℚ)|, fun v hv => ?_⟩
    rcases List.mem_cons.1 hv with rfl | hv
    · have := le_max_right X |(v.1 : ℚ)|
      have h1 := le_abs_self (v.1 : ℚ)
      have h2 := neg_abs_le (v.1 : ℚ)
      constructor <;> linarith
    · have := le_max_left X |(a.1 : ℚ)|
      have := hX v hv
      constructor <;> linarith [this.1, this.2]

theorem ring_two {l : List (Int × Int)} (hr : Ring l) : 2 ≤ l.length := by
  rcases l with _ | ⟨a, _ | ⟨b, r⟩⟩
  · exact absurd rfl hr.1
  · exact absurd rfl hr.1
  · simp

/-- An outline as a curve. -/
def ringLoop (l : List (Int × Int)) : Loop := ⟨l.map qp, windAt l⟩

/-- The outline turned by half a turn and moved: the points `p - v`. -/
def turned (p : ℚ × ℚ) (l : List (Int × Int)) : Loop := ⟨l.map (fun v => (p.1 - v.1, p.2 - v.2)), fun q => windAt l (p.1 - q.1, p.2 - q.2)⟩

theorem ringLoop_on {l : List (Int × Int)} {q : ℚ × ℚ} : (ringLoop l).On q ↔ ∃ e ∈ l.zip l.tail, OnEdge e q := by
  unfold Loop.On ringLoop
  simp only [← List.map_tail, List.zip_map, List.mem_map]
  constructor
  · rintro ⟨_, ⟨e, he, rfl⟩, h⟩; exact ⟨e, he, (onEdge_seg e q).2 h⟩
  · rintro ⟨e, he, h⟩; exact ⟨_, ⟨e, he, rfl⟩, (onEdge_seg e q).1 h⟩

theorem turned_on {p : ℚ × ℚ} {l : List (Int × Int)} {q : ℚ × ℚ} : (turned p l).On q ↔ ∃ e ∈ l.zip l.tail, OnEdge e (p.1 - q.1, p.2 - q.2) := by
  have key : ∀ e : Edge, OnSeg ((p.1 - e.1.1, p.2 - e.1.2), (p.1 - e.2.1, p.2 - e.2.2)) q ↔ OnEdge e (p.1 - q.1, p.2 - q.2) := by
    intro e
    refine exists_congr fun t => and_congr_right fun _ => and_congr_right fun _ => ?_
    rw [Prod.ext_iff]
    simp only [at']
    constructor
    · rintro ⟨a, b⟩; constructor <;> linarith
    · rintro ⟨a, b⟩; constructor <;> linarith
  unfold Loop.On turned
  simp only [← List.map_tail, List.zip_map, List.mem_map]
  constructor
  · rintro ⟨_, ⟨e, he, rfl⟩, h⟩; exact ⟨e, he, (key e).1 h⟩
  · rintro ⟨e, he, h⟩; exact ⟨_, ⟨e, he, rfl⟩, (key e).2 h⟩

theorem ringLoop_ok {l : List (Int × Int)} (hr : Ring l) : (ringLoop l).Ok := by
  refine ⟨by simpa [ringLoop] using ring_two hr, fun q q' ha => wind_avoid hr (fun t t1 t2 e he ho => ha t t1 t2 (ringLoop_on.2 ⟨e, he, ho⟩)), ?_⟩
  obtain ⟨X, hX⟩ := bound l
  exact ⟨X, fun q hq => wind_far hr (Or.inl fun v hv => by linarith [(hX v hv).2])⟩

theorem turned_ok {l : List (Int × Int)} (hr : Ring l) (p : ℚ × ℚ) : (turned p l).Ok := by
  refine ⟨by simpa [turned] using ring_two hr, fun q q' ha => wind_avoid hr (fun t t1 t2 e he ho => ha t t1 t2 (turned_on.2 ⟨e, he, ?_⟩)), ?_⟩
  · convert ho using 1
    ext <;> simp only [at'] <;> ring
  · obtain ⟨X, hX⟩ := bound l
    exact ⟨p.1 + X, fun q hq => wind_far hr (Or.inr fun v hv => by have := (hX v hv).1; simp only; linarith)⟩

end Verif.Loop
