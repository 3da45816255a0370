import Verif.Proofs.N45Run
import Verif.Proofs.Set45Set
/-!
# Data with several entries at a point

The formation adds up the entries of a point, so it does the same with the data in which they are one entry.
-/
namespace Verif.N45
open Verif.Deg45 Verif.Set45 Verif.Spec.Deg45 Verif.Form45
open Verif.F45 (qat)
open Verif.ArbForm (Heap Poly)

/-- The first list has one entry for every group of entries at a point of the second list. -/
inductive Cmp : List VC → List VC → Prop
  | nil : Cmp [] []
  | blk {p : P} {g C D : List VC} (hg : g ≠ []) (h1 : ∀ v ∈ g, v.1 = p) (h2 : ∀ v ∈ D, v.1 ≠ p) (h : Cmp C D) : Cmp ((p, total g) :: C) (g ++ D)

theorem Cmp.pts {C D : List VC} (h : Cmp C D) : ∀ v ∈ C, ∃ w ∈ D, w.1 = v.1 := by
  induction h with
  | nil => simp
  | @blk p g C D hg h1 h2 h ih =>
    intro v hv
    rcases List.mem_cons.1 hv with rfl | hv
    · obtain ⟨w, hw⟩ := List.exists_mem_of_ne_nil g hg
      exact ⟨w, List.mem_append_left _ hw, h1 w hw⟩
    · obtain ⟨w, hw, e⟩ := ih v hv
      exact ⟨w, List.mem_append_right _ hw, e⟩

theorem Cmp.len {C D : List VC} (h : Cmp C D) : C.length ≤ D.length := by
  induction h with
  | nil => simp
  | @blk p g C D hg h1 h2 h ih =>
    have : 0 < g.length := List.length_pos_iff.2 hg
    simp only [List.length_cons, List.length_append]
    omega

theorem add_zero4 (q : Quad Int) : (⟨0, 0, 0, 0⟩ : Quad Int).add q = q := by
  unfold Quad.add
  simp

theorem total_one (v : VC) : total [v] = v.2 := by
  unfold total
  simp only [List.foldl_cons, List.foldl_nil]
  exact add_zero4 _

theorem takeWhile_all {α : Type} {q : α → Bool} {g r : List α} (h1 : ∀ a ∈ g, q a = true) (h2 : ∀ a ∈ r, q a = false) :
    (g ++ r).takeWhile q = g ∧ (g ++ r).dropWhile q = r := by
  have e1 : r.takeWhile q = [] ∧ r.dropWhile q = r := by
    cases r with
    | nil => exact ⟨rfl, rfl⟩
    | cons a r =>
      have := h2 a (by simp)
      rw [List.takeWhile_cons, List.dropWhile_cons, this]
      exact ⟨rfl, rfl⟩
  rw [List.takeWhile_append_of_pos h1, List.dropWhile_append_of_pos h1, e1.1, e1.2, List.append_nil]
  exact ⟨rfl, rfl⟩

theorem Cmp.head {C D : List VC} (h : Cmp C D) : D.head?.map Prod.fst = C.head?.map Prod.fst := by
  cases h with
  | nil => rfl
  | @blk p g C D hg h1 h2 h =>
    cases g with
    | nil => exact absurd rfl hg
    | cons v g => simp [h1 v (by simp)]

theorem holeUp_cmp (x : Int) (sd : List (V45 × Nat)) (i : Nat) (s : ES) {L : List VC} (h : Cmp s.evs L) {t : ES} (e : holeUp x sd i s = some t) :
    holeUp x sd i { s with evs := L } = some { t with evs := L } ∧ t.evs = s.evs := by
  rcases s with ⟨E, H, out, els, vt, vc, rm⟩
  dsimp only at h ⊢
  have hh := h.head
  cases vt with
  | none =>
    simp only [holeUp] at e ⊢
    obtain rfl := Option.some_inj.1 e
    exact ⟨rfl, rfl⟩
  | some a =>
    by_cases c : vc ≠ 0
    · simp only [holeUp, if_pos c] at e ⊢
      obtain rfl := Option.some_inj.1 e
      exact ⟨rfl, rfl⟩
    · have addit : ∀ {E L : List VC} {t : ES}, (sd[i]? >>= fun b => some (⟨E, H.addHole b.2 a, out, els, none, vc, rm⟩ : ES)) = some t →
          (sd[i]? >>= fun b => some (⟨L, H.addHole b.2 a, out, els, none, vc, rm⟩ : ES)) = some { t with evs := L } ∧ t.evs = E := by
        intro E L t e
        rw [Option.bind_eq_bind, Option.bind_eq_some_iff] at e
        obtain ⟨b, h2, e⟩ := e
        rw [h2, Option.bind_eq_bind, Option.bind_some]
        obtain rfl := Option.some_inj.1 e
        exact ⟨rfl, rfl⟩
      cases L with
      | nil => cases E with
        | nil =>
          simp only [holeUp, if_neg c, Option.bind_eq_bind, Option.bind_some, if_true] at e ⊢
          exact addit e
        | cons u r => simp at hh
      | cons w m => cases E with
        | nil => simp at hh
        | cons u r =>
          have hw : w.1 = u.1 := by simpa using hh
          simp only [holeUp, if_neg c, Option.bind_eq_bind, Option.bind_some, if_true] at e ⊢
          rw [hw]
          by_cases cx : u.1.1 ≠ x
          · simp only [if_pos cx, Option.bind_some, if_true] at e ⊢
            exact addit e
          · simp only [if_neg cx] at e ⊢
            rw [Option.bind_eq_some_iff] at e
            obtain ⟨now, h1, e⟩ := e
            rw [h1, Option.bind_some]
            cases now with
            | false =>
              simp only [Bool.false_eq_true, if_false] at e ⊢
              obtain rfl := Option.some_inj.1 e
              exact ⟨rfl, rfl⟩
            | true =>
              simp only [if_true] at e ⊢
              exact addit e

theorem onePoint_cmp (x : Int) (sd : List (V45 × Nat)) (s : ES) {L : List VC} (h : Cmp s.evs L) {t : ES} (e : onePoint x sd s = some t) 
    (hx : ∀ v ∈ s.evs.head?, v.1.1 = x) :
    ∃ L', onePoint x sd { s with evs := L } = some { t with evs := L' } ∧ Cmp t.evs L' ∧ L'.length < L.length := by
  rcases s with ⟨E, H, out, els, vt, vc, rm⟩
  dsimp only at h hx
  cases h with
  | nil => simp [onePoint] at e
  | @blk p g C D hg h1 h2 h =>
    obtain ⟨v, g, rfl⟩ := List.exists_cons_of_ne_nil hg
    have hv : v.1 = p := h1 v (by simp)
    have hp : (x, p.2) = p := Prod.ext (hx _ rfl).symm rfl
    have w1 := takeWhile_all (q := fun e : VC => decide (e.1 = p)) (g := v :: g) (r := D) (fun a ha => by simpa using h1 a ha) (fun a ha => by simpa using h2 a ha)
    have w2 := takeWhile_all (q := fun e : VC => decide (e.1 = p)) (g := [(p, total (v :: g))]) (r := C) (by simp) (fun a ha => by
      obtain ⟨w, hw, e⟩ := h.pts a ha
      have := h2 w hw
      rw [e] at this
      simpa using this)
    unfold onePoint at e ⊢
    simp only [List.cons_append, List.nil_append] at w1 w2
    simp only [List.cons_append] at e ⊢
    rw [hv]
    simp only [hp, w1, w2, total_one, vertSlot] at e ⊢
    rw [Option.bind_eq_bind, Option.bind_eq_some_iff] at e
    obtain ⟨r, hr, e⟩ := e
    refine ⟨D, ?_⟩
    rw [hr, Option.bind_eq_bind, Option.bind_some]
    have := holeUp_cmp x sd _ _ (L := D) (by exact h) e
    refine ⟨this.1, ?_, ?_⟩
    · rw [this.2]; exact h
    · simp; omega

theorem points_cmp (x : Int) (sd : List (V45 × Nat)) : ∀ (n m : Nat) (s : ES) {L : List VC}, Cmp s.evs L → L.length < m → ∀ {t : ES}, points x sd n s = some t →
    ∃ L', points x sd m { s with evs := L } = some { t with evs := L' } ∧ Cmp t.evs L' ∧ L'.length ≤ L.length := by
  intro n
  induction n with
  | zero => intro m s L _ _ t e; cases e
  | succ n ih =>
    intro m s L h hm t e
    obtain ⟨m, rfl⟩ : ∃ k, m = k + 1 := ⟨m - 1, by omega⟩
    have hh := h.head
    unfold points at e ⊢
    dsimp only at e ⊢
    cases hE : s.evs with
    | nil =>
      rw [hE] at e hh h
      cases L with
      | cons w L => simp at hh
      | nil =>
        dsimp only at e ⊢
        obtain rfl := Option.some_inj.1 e
        exact ⟨[], rfl, by rw [hE]; exact Cmp.nil, le_refl _⟩
    | cons u r =>
      cases L with
      | nil => rw [hE] at hh; simp at hh
      | cons w L =>
        have hw : w.1 = u.1 := by rw [hE] at hh; simpa using hh
        rw [hE] at e
        dsimp only at e ⊢
        rw [hw]
        by_cases c : u.1.1 = x
        · rw [if_pos c] at e ⊢
          rw [Option.bind_eq_bind, Option.bind_eq_some_iff] at e
          obtain ⟨s1, e1, e2⟩ := e
          obtain ⟨L1, f1, f2, f3⟩ := onePoint_cmp x sd s h e1 (by rw [hE]; simpa using c)
          obtain ⟨L2, k1, k2, k3⟩ := ih m s1 f2 (by omega) e2
          refine ⟨L2, ?_, k2, by omega⟩
          rw [f1, Option.bind_eq_bind, Option.bind_some]
          exact k1
        · rw [if_neg c] at e ⊢
          obtain rfl := Option.some_inj.1 e
          exact ⟨_, rfl, h, le_refl _⟩

theorem points_less (x : Int) (sd : List (V45 × Nat)) (m : Nat) (s : ES) {w : VC} {L : List VC} (hs : s.evs = w :: L) (hw : w.1.1 = x) {t : ES}
    (e : points x sd (m + 1) s = some t) : ∃ s1, onePoint x sd s = some s1 ∧ points x sd m s1 = some t := by
  unfold points at e
  rw [hs] at e
  dsimp only at e
  rw [if_pos hw, Option.bind_eq_bind, Option.bind_eq_some_iff] at e
  exact e

theorem scan_cmp : ∀ (n m : Nat) {C D : List VC} (sd : List (V45 × Nat)) (H : Heap) (out res : List Poly), Cmp C D → D.length ≤ m →
    Form45.scan n C sd H out = some res → Form45.scan m D sd H out = some res := by
  intro n
  induction n with
  | zero =>
    intro m C D sd H out res h hm e
    cases h with
    | nil => simpa [Form45.scan] using e
    | blk => cases e
  | succ n ih =>
    intro m C D sd H out res h hm e
    have hh := h.head
    cases hC : C with
    | nil =>
      rw [hC] at hh h e
      cases D with
      | cons w L => simp at hh
      | nil => simpa [Form45.scan] using e
    | cons u r =>
      cases hD : D with
      | nil => rw [hC, hD] at hh; simp at hh
      | cons w L =>
        obtain ⟨m, rfl⟩ : ∃ k, m = k + 1 := ⟨m - 1, by rw [hD] at hm; simp at hm; omega⟩
        rw [hC] at e
        have hw : w.1 = u.1 := by rw [hC, hD] at hh; simpa using hh
        unfold Form45.scan at e ⊢
        rw [Option.bind_eq_bind, Option.bind_eq_some_iff] at e
        obtain ⟨⟨E1, sd1, H1, out1⟩, e1, e2⟩ := e
        dsimp only at e2
        unfold Form45.processEvent at e1
        rw [Option.bind_eq_bind, Option.bind_eq_some_iff] at e1
        obtain ⟨s1, e1, e3⟩ := e1
        rw [Option.bind_eq_bind, Option.bind_eq_some_iff] at e3
        obtain ⟨sd2, e3, e4⟩ := e3
        obtain ⟨rfl, rfl, rfl, rfl⟩ : s1.evs = E1 ∧ List.foldl (insertEl u.1.1) sd2 s1.els = sd1 ∧ s1.H = H1 ∧ s1.out = out1 := by
          have := Option.some_inj.1 e4
          simpa using this
        -- the first point
        have hlen : ∃ L', points w.1.1 sd (D.length + 1) ⟨D, H, out, [], none, 0, []⟩ = some { s1 with evs := L' } ∧ Cmp s1.evs L' ∧ L'.length < D.length := by
          rw [hw]
          obtain ⟨s2, f1, f2⟩ := points_less u.1.1 sd _ _ rfl rfl e1
          obtain ⟨L2, k1, k2, k3⟩ := onePoint_cmp u.1.1 sd _ (L := D) (by rw [← hC]; exact h) f1 (by simp)
          obtain ⟨L3, g1, g2, g3⟩ := points_cmp u.1.1 sd _ D.length s2 k2 k3 f2
          refine ⟨L3, ?_, g2, by omega⟩
          unfold points
          rw [hD]
          dsimp only
          rw [hw, if_pos rfl, ← hD]
          dsimp only at k1
          rw [k1, Option.bind_eq_bind, Option.bind_some]
          exact g1
        obtain ⟨L', l1, l2, l3⟩ := hlen
        rw [← hD]
        unfold Form45.processEvent
        rw [l1]
        simp only [Option.bind_eq_bind, Option.bind_some, e3]
        rw [hw]
        exact ih m _ _ _ _ l2 (by omega) e2

/-- The formation of the data with one entry for each point. -/
theorem form_cmp {C D : List VC} (h : Cmp C D) {out : List Poly} (e : Form45.form C = some out) : Form45.form D = some out :=
  scan_cmp _ _ _ _ _ _ h (le_refl _) e

/-! ### Sums -/

theorem tot_total {g : List VC} {p : P} (h : ∀ v ∈ g, v.1 = p) (f : P → Bool) (w : Quad Int → Int) (hw : ∀ a b, w (a.add b) = w a + w b) (h0 : w ⟨0, 0, 0, 0⟩ = 0) :
    tot g f w = if f p then w (total g) else 0 := by
  have key : ∀ (g : List VC) (q : Quad Int), (∀ v ∈ g, v.1 = p) → (if f p then w q else 0) + tot g f w = if f p then w (g.foldl (fun q v => q.add v.2) q) else 0 := by
    intro g
    induction g with
    | nil => intro q _; simp
    | cons v g ih =>
      intro q hg
      rw [tot_cons, List.foldl_cons, ← ih _ (fun u hu => hg u (by simp [hu])), hg v (by simp), hw]
      split_ifs <;> ring
  have := key g ⟨0, 0, 0, 0⟩ h
  rw [h0] at this
  unfold total
  rw [← this]
  simp

theorem Cmp.tot {C D : List VC} (h : Cmp C D) (f : P → Bool) (w : Quad Int → Int) (hw : ∀ a b, w (a.add b) = w a + w b) (h0 : w ⟨0, 0, 0, 0⟩ = 0) :
    tot C f w = tot D f w := by
  induction h with
  | nil => rfl
  | @blk p g C D hg h1 h2 h ih =>
    rw [tot_cons, tot_append, ih, tot_total h1 f w hw h0]

theorem Cmp.depth {C D : List VC} (h : Cmp C D) (q : ℚ × ℚ) : depth C q = Spec.Deg45.depth D q := by
  rw [depth_tot, depth_tot, h.tot _ _ (fun _ _ => rfl) rfl, h.tot _ _ (fun _ _ => rfl) rfl, h.tot _ _ (fun _ _ => rfl) rfl]

theorem Cmp.closed {C D : List VC} (h : Cmp C D) (hc : Closed D) : Closed C := by
  refine ⟨fun p => ?_, fun x => ?_, fun k => ?_, fun k => ?_, fun k => ?_⟩
  · rw [h.tot _ _ (fun a b => ?_) rfl, h.tot _ _ (fun _ _ => rfl) rfl]
    · exact hc.point p
    · simp only [Quad.add]; ring
  · rw [h.tot _ _ (fun _ _ => rfl) rfl]; exact hc.vert x
  · rw [h.tot _ _ (fun _ _ => rfl) rfl]; exact hc.down k
  · rw [h.tot _ _ (fun _ _ => rfl) rfl]; exact hc.flat k
  · rw [h.tot _ _ (fun _ _ => rfl) rfl]; exact hc.up k

/-- Sorted data can be made into data with one entry for each point. -/
theorem cmp_exists : ∀ (n : Nat) (D : List VC), D.length ≤ n → D.Pairwise Spec.Deg45.Lex → ∃ C, Cmp C D ∧ C.Pairwise (fun v w => PLt v.1 w.1) := by
  intro n
  induction n with
  | zero =>
    intro D hD _
    have : D = [] := List.length_eq_zero_iff.1 (by omega)
    subst this
    exact ⟨[], Cmp.nil, List.Pairwise.nil⟩
  | succ n ih =>
    intro D hD hs
    cases D with
    | nil => exact ⟨[], Cmp.nil, List.Pairwise.nil⟩
    | cons v D =>
      have hsp : v :: D = (v :: D).takeWhile (fun e => decide (e.1 = v.1)) ++ (v :: D).dropWhile (fun e => decide (e.1 = v.1)) := (List.takeWhile_append_dropWhile).symm
      have hne : (v :: D).takeWhile (fun e => decide (e.1 = v.1)) ≠ [] := by rw [List.takeWhile_cons]; simp
      have ht : ∀ u ∈ (v :: D).takeWhile (fun e => decide (e.1 = v.1)), u.1 = v.1 := by
        intro u hu
        simpa using List.mem_takeWhile_imp hu
      rcases hdr : (v :: D).dropWhile (fun e => decide (e.1 = v.1)) with _ | ⟨w, R⟩
      · rw [hdr] at hsp
        refine ⟨[(v.1, total ((v :: D).takeWhile (fun e => decide (e.1 = v.1))))], ?_, List.pairwise_singleton _ _⟩
        conv_rhs => rw [hsp]
        exact Cmp.blk hne ht (by simp) Cmp.nil
      · have hw : ¬ (fun e : VC => decide (e.1 = v.1)) w = true := by
          have := List.head?_dropWhile_not (fun e : VC => decide (e.1 = v.1)) (v :: D)
          rw [hdr] at this
          simpa using this
        have hw' : w.1 ≠ v.1 := by simpa using hw
        rw [hdr] at hsp
        have hs' := hs
        rw [hsp, List.pairwise_append] at hs'
        have hall : ∀ u ∈ w :: R, PLt v.1 u.1 := by
          intro u hu
          have hvt : v ∈ (v :: D).takeWhile (fun e => decide (e.1 = v.1)) := by rw [List.takeWhile_cons]; simp
          have l1 := hs'.2.2 v hvt w (by simp)
          have l2 : w = u ∨ Spec.Deg45.Lex w u := by
            rcases List.mem_cons.1 hu with rfl | hu
            · exact Or.inl rfl
            · exact Or.inr ((List.pairwise_cons.1 hs'.2.1).1 u hu)
          have hne : ¬ (w.1.1 = v.1.1 ∧ w.1.2 = v.1.2) := fun h => hw' (Prod.ext h.1 h.2)
          unfold Spec.Deg45.Lex at l1 l2
          unfold PLt
          rcases l2 with rfl | l2 <;> omega
        have hlen : (w :: R).length ≤ n := by
          have := congrArg List.length hsp
          rw [List.length_append] at this
          have : 0 < ((v :: D).takeWhile (fun e => decide (e.1 = v.1))).length := List.length_pos_iff.2 hne
          omega
        obtain ⟨C, c1, c2⟩ := ih (w :: R) hlen hs'.2.1
        refine ⟨(v.1, total ((v :: D).takeWhile (fun e => decide (e.1 = v.1)))) :: C, ?_, List.pairwise_cons.2 ⟨?_, c2⟩⟩
        · conv_rhs => rw [hsp]
          refine Cmp.blk hne ht (fun u hu e => ?_) c1
          have := hall u hu
          rw [e] at this
          unfold PLt at this; omega
        · intro u hu
          obtain ⟨u', hu', e⟩ := c1.pts u hu
          rw [← e]
          exact hall u' hu'

theorem cmp_self {D : List VC} (h : D.Pairwise (fun v w => PLt v.1 w.1)) : Cmp D D := by
  induction D with
  | nil => exact Cmp.nil
  | cons v D ih =>
    rw [List.pairwise_cons] at h
    have := Cmp.blk (p := v.1) (g := [v]) (by simp) (by simp) (fun u hu e => by
      have := h.1 u hu
      rw [e] at this
      unfold PLt at this; omega) (ih h.2)
    rw [total_one] at this
    exact this

/-- Data whose formation is that of noded data. -/
def Regular (D : List VC) : Prop := ∃ C, Cmp C D ∧ Noded C

theorem Noded.regular {D : List VC} (h : Noded D) : Regular D := ⟨D, cmp_self h.srt, h⟩

theorem qat_add (r : Int) (a b : Quad Int) : qat (a.add b) r = qat a r + qat b r := by
  unfold qat Quad.add
  split_ifs <;> rfl

theorem qat_zero (r : Int) : qat ⟨0, 0, 0, 0⟩ r = 0 := by unfold qat; split_ifs <;> rfl

open Verif.BooleanOp in
/-- The data of the Manhattan operations. -/
theorem regular90 {umin umax : Int} {d : List V} (h : Verif.Spec.Valid umin umax ⟨Isotropy.VERTICAL, d, false, false⟩) : Regular (of90 d) := by
  have hv := (of90_valid [] h).1
  have hc : Canon d := Set90.canon_of_flat (h.sorted rfl) (h.clean rfl)
  obtain ⟨C, c1, c2⟩ := cmp_exists _ (of90 d) (le_refl _) (hv.sorted rfl)
  refine ⟨C, c1, c2, c1.closed hv.closed, fun q => by rw [c1.depth]; exact hv.clean rfl q, ?_, ?_⟩
  · intro v hv' h0
    exfalso
    have e0 := h0 0 (by simp [Slope])
    have e1 := tot_at c2 hv' (fun c => qat c 0)
    rw [c1.tot _ _ (qat_add 0) (qat_zero 0)] at e1
    rw [e0] at e1
    have e2 : (fun c : Quad Int => qat c 0) = Quad.z := by funext c; rfl
    rw [e2, (tot_of90 d _).2.1] at e1
    obtain ⟨w, hw, ew⟩ := c1.pts v hv'
    obtain ⟨u, hu, rfl⟩ := List.mem_map.1 hw
    dsimp only at ew
    apply Set90.mass_ne_zero hc hu
    rw [← e1]
    unfold mass
    rw [← ew]
    simp [Prod.ext_iff]
  · intro p _ hx
    have z : ∀ r : Int, r = 1 ∨ r = -1 → W C ((p.1 : ℚ), (p.2 : ℚ)) r = 0 := by
      intro r hr
      unfold W
      rw [c1.tot _ _ (qat_add r) (qat_zero r)]
      rcases hr with rfl | rfl
      · exact (tot_of90 d _).1.2
      · exact (tot_of90 d _).1.1
    have z1 := z 1 (Or.inl rfl)
    have z2 := z (-1) (Or.inr rfl)
    rcases hx with h | h | h
    · exact h.1 z1
    · exact h.1 z1
    · exact h.2 z2

/-- The formation of regular data. -/
theorem Regular.form {D : List VC} (h : Regular D) : ∃ C out out', Cmp C D ∧ Noded C ∧ ArbForm.form (allEdges C) = some out ∧ Form45.form D = some out' ∧
    List.Forall₂ F45.PR out' out := by
  obtain ⟨C, c1, c2⟩ := h
  obtain ⟨out, out', h1, h2, h3⟩ := c2.form
  exact ⟨C, out, out', c1, c2, h1, form_cmp c1 h2, h3⟩

end Verif.N45
