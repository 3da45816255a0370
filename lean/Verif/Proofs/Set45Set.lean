import Verif.Proofs.Set45Depth
import Verif.Proofs.Set90Ops
/-! # The operations of 45-degree sets -/
namespace Verif.Set45
open Verif.Deg45 Verif.Spec.Deg45 Verif.BooleanOp

/-! ### Sorting -/

theorem sortVC_perm (L : List VC) : (sortVC L).Perm L := List.perm_insertionSort _ _

theorem sortVC_sorted (L : List VC) : (sortVC L).Pairwise Spec.Deg45.Lex := by
  have ht : ∀ a b : VC, ltVC b a = false ∨ ltVC a b = false := by
    intro a b
    simp only [ltVC, Bool.or_eq_false_iff, Bool.and_eq_false_iff, decide_eq_false_iff_not, beq_eq_false_iff_ne, ne_eq]
    omega
  have htr : ∀ a b c : VC, ltVC b a = false → ltVC c b = false → ltVC c a = false := by
    intro a b c
    simp only [ltVC, Bool.or_eq_false_iff, Bool.and_eq_false_iff, decide_eq_false_iff_not, beq_eq_false_iff_ne, ne_eq]
    omega
  haveI : Std.Total (fun a b : VC => ltVC b a = false) := ⟨ht⟩
  haveI : IsTrans VC (fun a b : VC => ltVC b a = false) := ⟨fun a b c => htr a b c⟩
  refine (List.pairwise_insertionSort (fun a b : VC => ltVC b a = false) L).imp ?_
  intro a b h
  simp only [ltVC, Bool.or_eq_false_iff, Bool.and_eq_false_iff, decide_eq_false_iff_not, beq_eq_false_iff_ne, ne_eq] at h
  unfold Spec.Deg45.Lex
  omega

section perm
variable {C : Type} [AddCommGroup C]

theorem depth_perm {D E : List (Vert C)} (h : D.Perm E) (q : ℚ × ℚ) : depth D q = depth E q := by
  rw [depth_tot, depth_tot, tot_perm h, tot_perm h, tot_perm h]

theorem closed_perm {D E : List (Vert C)} (h : D.Perm E) (hc : Closed D) : Closed E :=
  ⟨fun p => by rw [← tot_perm h, ← tot_perm h]; exact hc.point p, fun x => by rw [← tot_perm h]; exact hc.vert x,
   fun x => by rw [← tot_perm h]; exact hc.down x, fun x => by rw [← tot_perm h]; exact hc.flat x,
   fun x => by rw [← tot_perm h]; exact hc.up x⟩

theorem depth_append (D E : List (Vert C)) (q : ℚ × ℚ) : depth (D ++ E) q = depth D q + depth E q := by simp [depth]

theorem closed_append {D E : List (Vert C)} (h : Closed D) (h' : Closed E) : Closed (D ++ E) :=
  ⟨fun p => by rw [tot_append, tot_append, h.point, h'.point], fun x => by rw [tot_append, h.vert, h'.vert, add_zero],
   fun x => by rw [tot_append, h.down, h'.down, add_zero], fun x => by rw [tot_append, h.flat, h'.flat, add_zero],
   fun x => by rw [tot_append, h.up, h'.up, add_zero]⟩

end perm

theorem sort_facts (s : S45) : s.sort.data.Perm s.data ∧ s.sort.dirty = s.dirty ∧ s.sort.unsorted = false ∧ s.sort.manh = s.manh ∧
    s.sort.err = s.err := by
  unfold S45.sort
  split_ifs with h
  · exact ⟨sortVC_perm _, rfl, rfl, rfl, rfl⟩
  · exact ⟨List.Perm.refl _, rfl, by simpa using h, rfl, rfl⟩

theorem range_perm {umin umax : Int} {D E : List VC} (h : D.Perm E) (hr : InRange umin umax D) : InRange umin umax E :=
  fun v hv => hr v (h.mem_iff.2 hv)

theorem valid_sort {umin umax : Int} {s : S45} (h : Valid umin umax s) : Valid umin umax s.sort := by
  obtain ⟨h1, h2, h3, h4, -⟩ := sort_facts s
  refine ⟨fun _ => ?_, fun hd q => ?_, fun hm v hv => ?_, closed_perm h1.symm h.closed, range_perm h1.symm h.range⟩
  · unfold S45.sort
    split_ifs with c
    · exact sortVC_sorted _
    · exact h.sorted (by simpa using c)
  · rw [depth_perm h1]; exact h.clean (by rw [← h2]; exact hd) q
  · exact h.manh (by rw [← h4]; exact hm) v (h1.mem_iff.1 hv)

theorem sorted_data {umin umax : Int} {s : S45} (h : Valid umin umax s) : s.sort.data.Pairwise Spec.Deg45.Lex :=
  (valid_sort h).sorted (sort_facts s).2.2.1

/-! ### Taking the vertices of two sets in order -/

theorem merge2_nil_right (l : List VC) : merge2 l [] = l.map left := by
  cases l <;> simp [merge2]

theorem merge2_tot : ∀ (n : Nat) (l r : List VC), l.length + r.length ≤ n → ∀ f,
    (tot (merge2 l r) f Quad.n = (tot l f Quad.n, tot r f Quad.n) ∧ tot (merge2 l r) f Quad.z = (tot l f Quad.z, tot r f Quad.z)) ∧
    tot (merge2 l r) f Quad.p = (tot l f Quad.p, tot r f Quad.p) ∧ tot (merge2 l r) f Quad.v = (tot l f Quad.v, tot r f Quad.v) := by
  have hR : ∀ (r : List VC) f, (tot (r.map right) f Quad.n = (0, tot r f Quad.n) ∧ tot (r.map right) f Quad.z = (0, tot r f Quad.z)) ∧
      tot (r.map right) f Quad.p = (0, tot r f Quad.p) ∧ tot (r.map right) f Quad.v = (0, tot r f Quad.v) := by
    intro r f
    induction r with
    | nil => exact ⟨⟨rfl, rfl⟩, rfl, rfl⟩
    | cons v r ih =>
      obtain ⟨⟨h1, h2⟩, h3, h4⟩ := ih
      simp only [List.map_cons, tot_cons, h1, h2, h3, h4, right]
      refine ⟨⟨?_, ?_⟩, ?_, ?_⟩ <;> by_cases cf : f v.1 = true <;> simp [cf]
  have hL : ∀ (r : List VC) f, (tot (r.map left) f Quad.n = (tot r f Quad.n, 0) ∧ tot (r.map left) f Quad.z = (tot r f Quad.z, 0)) ∧
      tot (r.map left) f Quad.p = (tot r f Quad.p, 0) ∧ tot (r.map left) f Quad.v = (tot r f Quad.v, 0) := by
    intro r f
    induction r with
    | nil => exact ⟨⟨rfl, rfl⟩, rfl, rfl⟩
    | cons v r ih =>
      obtain ⟨⟨h1, h2⟩, h3, h4⟩ := ih
      simp only [List.map_cons, tot_cons, h1, h2, h3, h4, left]
      refine ⟨⟨?_, ?_⟩, ?_, ?_⟩ <;> by_cases cf : f v.1 = true <;> simp [cf]
  intro n
  induction n with
  | zero =>
    intro l r hn f
    have h1 : l = [] := List.length_eq_zero_iff.1 (by omega)
    have h2 : r = [] := List.length_eq_zero_iff.1 (by omega)
    rw [h1, h2]
    simpa [merge2] using hR [] f
  | succ n ih =>
    intro l r hn f
    cases l with
    | nil => simpa [merge2] using hR r f
    | cons v l =>
      cases r with
      | nil => rw [merge2_nil_right]; simpa using hL (v :: l) f
      | cons w r =>
        simp only [List.length_cons] at hn
        rw [merge2]
        by_cases c1 : ltVC w v = true
        · rw [if_pos c1]
          obtain ⟨⟨h1, h2⟩, h3, h4⟩ := ih (v :: l) r (by simp only [List.length_cons]; omega) f
          simp only [tot_cons] at h1 h2 h3 h4 ⊢
          simp only [h1, h2, h3, h4, right]
          refine ⟨⟨?_, ?_⟩, ?_, ?_⟩ <;> by_cases cf : f w.1 = true <;> simp [cf]
        · rw [if_neg c1]
          by_cases c2 : ltVC v w = true
          · rw [if_pos c2]
            obtain ⟨⟨h1, h2⟩, h3, h4⟩ := ih l (w :: r) (by simp only [List.length_cons]; omega) f
            simp only [tot_cons] at h1 h2 h3 h4 ⊢
            simp only [h1, h2, h3, h4, left]
            refine ⟨⟨?_, ?_⟩, ?_, ?_⟩ <;> by_cases cf : f v.1 = true <;> simp [cf]
          · rw [if_neg c2]
            have e : v.1 = w.1 := by
              simp only [ltVC, Bool.or_eq_true, Bool.and_eq_true, decide_eq_true_eq, beq_iff_eq, not_or, not_and] at c1 c2
              exact Prod.ext (by omega) (by omega)
            obtain ⟨⟨h1, h2⟩, h3, h4⟩ := ih l r (by omega) f
            simp only [tot_cons, h1, h2, h3, h4, both, e]
            refine ⟨⟨?_, ?_⟩, ?_, ?_⟩ <;> by_cases cf : f w.1 = true <;> simp [cf]

theorem merge2_mem : ∀ (n : Nat) (l r : List VC), l.length + r.length ≤ n → ∀ x ∈ merge2 l r,
    (∃ v ∈ l, x = left v) ∨ (∃ w ∈ r, x = right w) ∨ ∃ v ∈ l, ∃ w ∈ r, v.1 = w.1 ∧ x = both v w := by
  intro n
  induction n with
  | zero =>
    intro l r hn x hx
    have h1 : l = [] := List.length_eq_zero_iff.1 (by omega)
    have h2 : r = [] := List.length_eq_zero_iff.1 (by omega)
    rw [h1, h2] at hx; simp [merge2] at hx
  | succ n ih =>
    intro l r hn x hx
    cases l with
    | nil =>
      simp only [merge2, List.mem_map] at hx
      obtain ⟨w, hw, rfl⟩ := hx
      exact Or.inr (Or.inl ⟨w, hw, rfl⟩)
    | cons v l =>
      cases r with
      | nil =>
        rw [merge2_nil_right, List.mem_map] at hx
        obtain ⟨w, hw, rfl⟩ := hx
        exact Or.inl ⟨w, hw, rfl⟩
      | cons w r =>
        simp only [List.length_cons] at hn
        rw [merge2] at hx
        by_cases c1 : ltVC w v = true
        · rw [if_pos c1] at hx
          rcases List.mem_cons.1 hx with rfl | hx
          · exact Or.inr (Or.inl ⟨w, by simp, rfl⟩)
          · rcases ih (v :: l) r (by simp only [List.length_cons]; omega) x hx with h | ⟨u, hu, h⟩ | ⟨u, hu, z, hz, h⟩
            · exact Or.inl h
            · exact Or.inr (Or.inl ⟨u, by simp [hu], h⟩)
            · exact Or.inr (Or.inr ⟨u, hu, z, by simp [hz], h⟩)
        · rw [if_neg c1] at hx
          by_cases c2 : ltVC v w = true
          · rw [if_pos c2] at hx
            rcases List.mem_cons.1 hx with rfl | hx
            · exact Or.inl ⟨v, by simp, rfl⟩
            · rcases ih l (w :: r) (by simp only [List.length_cons]; omega) x hx with ⟨u, hu, h⟩ | h | ⟨u, hu, z, hz, h⟩
              · exact Or.inl ⟨u, by simp [hu], h⟩
              · exact Or.inr (Or.inl h)
              · exact Or.inr (Or.inr ⟨u, by simp [hu], z, hz, h⟩)
          · rw [if_neg c2] at hx
            have e : v.1 = w.1 := by
              simp only [ltVC, Bool.or_eq_true, Bool.and_eq_true, decide_eq_true_eq, beq_iff_eq, not_or, not_and] at c1 c2
              exact Prod.ext (by omega) (by omega)
            rcases List.mem_cons.1 hx with rfl | hx
            · exact Or.inr (Or.inr ⟨v, by simp, w, by simp, e, rfl⟩)
            · rcases ih l r (by omega) x hx with ⟨u, hu, h⟩ | ⟨u, hu, h⟩ | ⟨u, hu, z, hz, h⟩
              · exact Or.inl ⟨u, by simp [hu], h⟩
              · exact Or.inr (Or.inl ⟨u, by simp [hu], h⟩)
              · exact Or.inr (Or.inr ⟨u, by simp [hu], z, by simp [hz], h⟩)

theorem merge2_pts {l r : List VC} {T : P → Prop} (hl : ∀ v ∈ l, T v.1) (hr : ∀ v ∈ r, T v.1) : ∀ x ∈ merge2 l r, T x.1 := by
  intro x hx
  rcases merge2_mem _ l r (le_refl _) x hx with ⟨v, hv, rfl⟩ | ⟨v, hv, rfl⟩ | ⟨v, hv, w, hw, -, rfl⟩
  · exact hl v hv
  · exact hr v hv
  · exact hr w hw

theorem merge2_sorted : ∀ (n : Nat) (l r : List VC), l.length + r.length ≤ n → l.Pairwise Spec.Deg45.Lex → r.Pairwise Spec.Deg45.Lex →
    (merge2 l r).Pairwise Spec.Deg45.Lex := by
  intro n
  induction n with
  | zero =>
    intro l r hn _ _
    have h1 : l = [] := List.length_eq_zero_iff.1 (by omega)
    have h2 : r = [] := List.length_eq_zero_iff.1 (by omega)
    rw [h1, h2]; simp [merge2]
  | succ n ih =>
    intro l r hn hl hr
    cases l with
    | nil =>
      simp only [merge2]
      rw [List.pairwise_map]; exact hr
    | cons v l =>
      cases r with
      | nil => rw [merge2_nil_right, List.pairwise_map]; exact hl
      | cons w r =>
        simp only [List.length_cons] at hn
        obtain ⟨l1, l2⟩ := List.pairwise_cons.1 hl
        obtain ⟨r1, r2⟩ := List.pairwise_cons.1 hr
        rw [merge2]
        simp only [ltVC, Bool.or_eq_true, Bool.and_eq_true, decide_eq_true_eq, beq_iff_eq]
        -- everything from a point on
        have key : ∀ p : P, (p.1 < v.1.1 ∨ (p.1 = v.1.1 ∧ p.2 ≤ v.1.2)) → (p.1 < w.1.1 ∨ (p.1 = w.1.1 ∧ p.2 ≤ w.1.2)) →
            (∀ u ∈ v :: l, p.1 < u.1.1 ∨ (p.1 = u.1.1 ∧ p.2 ≤ u.1.2)) ∧ ∀ u ∈ w :: r, p.1 < u.1.1 ∨ (p.1 = u.1.1 ∧ p.2 ≤ u.1.2) := by
          intro p h1 h2
          constructor
          · intro u hu
            rcases List.mem_cons.1 hu with rfl | hu
            · exact h1
            · have := l1 u hu; unfold Spec.Deg45.Lex at this; omega
          · intro u hu
            rcases List.mem_cons.1 hu with rfl | hu
            · exact h2
            · have := r1 u hu; unfold Spec.Deg45.Lex at this; omega
        by_cases c1 : w.1.1 < v.1.1 ∨ (w.1.1 = v.1.1 ∧ w.1.2 < v.1.2)
        · rw [if_pos c1]
          obtain ⟨k1, k2⟩ := key w.1 (by omega) (by omega)
          exact List.pairwise_cons.2 ⟨merge2_pts (T := fun p => w.1.1 < p.1 ∨ (w.1.1 = p.1 ∧ w.1.2 ≤ p.2)) k1
            (fun u hu => k2 u (by simp [hu])), ih _ _ (by simp only [List.length_cons]; omega) hl r2⟩
        · rw [if_neg c1]
          by_cases c2 : v.1.1 < w.1.1 ∨ (v.1.1 = w.1.1 ∧ v.1.2 < w.1.2)
          · rw [if_pos c2]
            obtain ⟨k1, k2⟩ := key v.1 (by omega) (by omega)
            exact List.pairwise_cons.2 ⟨merge2_pts (T := fun p => v.1.1 < p.1 ∨ (v.1.1 = p.1 ∧ v.1.2 ≤ p.2))
              (fun u hu => k1 u (by simp [hu])) k2, ih _ _ (by simp only [List.length_cons]; omega) l2 hr⟩
          · rw [if_neg c2]
            obtain ⟨k1, k2⟩ := key w.1 (by omega) (by omega)
            exact List.pairwise_cons.2 ⟨merge2_pts (T := fun p => w.1.1 < p.1 ∨ (w.1.1 = p.1 ∧ w.1.2 ≤ p.2))
              (fun u hu => k1 u (by simp [hu])) (fun u hu => k2 u (by simp [hu])), ih _ _ (by omega) l2 r2⟩

theorem merge2_depth (l r : List VC) (q : ℚ × ℚ) : depth (merge2 l r) q = (depth l q, depth r q) := by
  have h := merge2_tot _ l r (le_refl _)
  rw [depth_tot, depth_tot, depth_tot, (h _).1.1, (h _).1.2, (h _).2.1]
  rfl

theorem merge2_closed {l r : List VC} (hl : Closed l) (hr : Closed r) : Closed (merge2 l r) := by
  have h := merge2_tot _ l r (le_refl _)
  refine ⟨fun p => ?_, fun x => ?_, fun k => ?_, fun k => ?_, fun k => ?_⟩
  · have h1 := hl.point p
    have h2 := hr.point p
    rw [tot_add, tot_add] at h1 h2 ⊢
    show tot (merge2 l r) _ Quad.n + tot (merge2 l r) _ Quad.z + tot (merge2 l r) _ Quad.p = _
    rw [(h _).1.1, (h _).1.2, (h _).2.1, (h _).2.2, ← h1, ← h2]
    rfl
  · rw [(h _).2.2, hl.vert, hr.vert]; rfl
  · rw [(h _).1.1, hl.down, hr.down]; rfl
  · rw [(h _).1.2, hl.flat, hr.flat]; rfl
  · rw [(h _).2.1, hl.up, hr.up]; rfl

theorem merge2_grid {l r : List VC} (hl : OnGrid l) (hr : OnGrid r) : OnGrid (merge2 l r) := by
  intro x hx hne
  rcases merge2_mem _ l r (le_refl _) x hx with ⟨v, hv, rfl⟩ | ⟨v, hv, rfl⟩ | ⟨v, hv, w, hw, e, rfl⟩
  · refine hl v hv ?_
    simpa [left, Prod.ext_iff] using hne
  · refine hr v hv ?_
    simpa [right, Prod.ext_iff] using hne
  · by_cases c : v.2.n ≠ 0 ∨ v.2.p ≠ 0
    · have := hl v hv c; rw [e] at this; exact this
    · refine hr w hw ?_
      push Not at c
      simp only [both, ne_eq, Prod.ext_iff, c.1, c.2] at hne
      simpa using hne

/-! ### Results of the scanline -/

theorem box_of_range {umin umax : Int} {D : List VC} (h : InRange umin umax D) : Box umin umax D :=
  fun v hv hn => ⟨⟨(h v hv).1, ((h v hv).2 hn).1⟩, ((h v hv).2 hn).2⟩

theorem gi_cases {C : Type} (g : C → Bool) (c : C) : gi g c = 0 ∨ gi g c = 1 := by
  unfold gi; cases g c <;> simp

theorem result_valid {umin umax : Int} {d : List VC} {m : Bool} {f : ℚ × ℚ → Int} {e : List VC} (hd : ∀ q, depth d q = f q)
    (hf : ∀ q, f q = 0 ∨ f q = 1) (hc : Closed d) (hs : d.Pairwise (fun v w => PLt v.1 w.1))
    (hm : m = true ↔ ∀ v ∈ d, is45 v.2 = false) (hmin : ∀ v ∈ d, umin ≤ v.1.1)
    (hbox : ∀ q : ℚ × ℚ, (q.1 < umin ∨ (umax : ℚ) < q.1 ∨ q.2 < umin ∨ (umax : ℚ) < q.2) → f q = 0) :
    Valid umin umax ⟨e, d, false, false, m⟩ := by
  have hb : Box umin umax d := box_of_depth hc hs (fun q hq => by rw [hd]; exact hbox q hq)
  refine ⟨fun _ => hs.imp ?_, fun _ q => ?_, fun h v hv => ?_, hc, fun v hv => ⟨hmin v hv, fun hn => ?_⟩⟩
  · intro a b h; unfold PLt at h; unfold Spec.Deg45.Lex; omega
  · rw [hd]; exact hf q
  · have := hm.1 h v hv
    simpa [is45] using this
  · have := hb v hv hn; omega

theorem boolean45_spec {umin umax : Int} {g : Int × Int → Bool} (h0 : g 0 = false) {l r : List VC} (e : List VC)
    (hl : l.Pairwise Spec.Deg45.Lex) (hr : r.Pairwise Spec.Deg45.Lex) (cl : Closed l) (cr : Closed r)
    (rl : InRange umin umax l) (rr : InRange umin umax r) :
    (∃ d m, boolean45 g umin l r = .ok (d, m) ∧ Valid umin umax ⟨e, d, false, false, m⟩ ∧
      (∀ q, depth d q = gi g (depth l q, depth r q)) ∧ (OnGrid l → OnGrid r → OnGrid d)) ∨
    (boolean45 g umin l r = .error .precision ∧ ¬ (OnGrid l ∧ OnGrid r)) := by
  rcases runOn_spec h0 (umin := umin) (merge2_sorted _ l r (le_refl _) hl hr) (merge2_closed cl cr)
    (merge2_pts (T := fun p => umin ≤ p.1) (fun v hv => (rl v hv).1) (fun v hv => (rr v hv).1)) with
    ⟨d, m, e1, e2, e3, e4, e5, e6, -⟩ | ⟨e1, e2⟩
  · left
    simp only [merge2_depth] at e2
    refine ⟨d, m, e1, result_valid e2 (fun q => gi_cases g _) e3 e4 e5 e6 (fun q hq => ?_), e2, fun g1 g2 => ?_⟩
    swap
    · refine grid_of_depth (E := merge2 l r) (f := gi g) e4 (fun q => ?_) (merge2_grid g1 g2)
      rw [e2, merge2_depth]
    rw [depth_box cl (box_of_range rl) hq, depth_box cr (box_of_range rr) hq]
    show gi g (0, 0) = 0
    unfold gi; rw [show ((0, 0) : Int × Int) = 0 from rfl, h0]; rfl
  · right
    exact ⟨e1, fun h => e2 (merge2_grid h.1 h.2)⟩

theorem unary45_spec {umin umax : Int} {g : Int → Bool} (h0 : g 0 = false) {l : List VC} (e : List VC)
    (hl : l.Pairwise Spec.Deg45.Lex) (cl : Closed l) (rl : InRange umin umax l) :
    (∃ d m, unary45 g umin l = .ok (d, m) ∧ Valid umin umax ⟨e, d, false, false, m⟩ ∧ (∀ q, depth d q = gi g (depth l q)) ∧
      (OnGrid l → OnGrid d)) ∨
    (unary45 g umin l = .error .precision ∧ ¬ OnGrid l) := by
  rcases runOn_spec h0 (umin := umin) hl cl (fun v hv => (rl v hv).1) with ⟨d, m, e1, e2, e3, e4, e5, e6, -⟩ | h
  · left
    refine ⟨d, m, e1, result_valid e2 (fun q => gi_cases g _) e3 e4 e5 e6 (fun q hq => ?_), e2, fun g1 => grid_of_depth e4 e2 g1⟩
    rw [depth_box cl (box_of_range rl) hq]
    unfold gi; rw [h0]; rfl
  · right; exact h

/-! ### Manhattan data -/

/-- What `to90` holds. -/
def data90 (d : List VC) : List V := (d.filter (fun v => decide (v.2.v ≠ 0))).map (fun v => ⟨v.1.1, v.1.2, v.2.v⟩)

theorem to90_eq (d : List VC) : (to90 d).orient = Isotropy.VERTICAL ∧ (to90 d).data = data90 d ∧
    ((to90 d).dirty = false → data90 d = []) ∧ ((to90 d).unsorted = false → data90 d = []) := by
  have h := Set90.foldl_insertVertex (data90 d) (Set90.PSet.mk0 Isotropy.VERTICAL) Isotropy.VERTICAL
  have e : to90 d = (data90 d).foldl (fun s v => s.insertVertex v false Isotropy.VERTICAL) (Set90.PSet.mk0 Isotropy.VERTICAL) := by
    unfold to90 data90
    rw [List.foldl_map]
  rw [e, h]
  simp [Set90.PSet.mk0]

theorem sum90 (d : List VC) (f : P → Bool) : ((data90 d).map (fun v => if f (v.x, v.y) = true then v.c else 0)).sum = tot d f Quad.v := by
  unfold data90
  induction d with
  | nil => rfl
  | cons v d ih =>
    rw [tot_cons, ← ih]
    by_cases c : v.2.v = 0
    · rw [List.filter_cons_of_neg (by simpa using c)]
      simp [c]
    · rw [List.filter_cons_of_pos (by simpa using c)]
      simp

theorem tot_manh {D : List VC} (h : Manhattan D) (f : P → Bool) : tot D f Quad.n = 0 ∧ tot D f Quad.p = 0 := by
  induction D with
  | nil => exact ⟨rfl, rfl⟩
  | cons v D ih =>
    have hv := h v List.mem_cons_self
    obtain ⟨h1, h2⟩ := ih (fun u hu => h u (List.mem_cons_of_mem _ hu))
    rw [tot_cons, tot_cons, h1, h2, hv.1, hv.2]
    simp

theorem tot_zv {D : List VC} (hm : Manhattan D) (hc : Closed D) (f : P → Bool) : tot D f Quad.z = tot D f Quad.v := by
  have := closed_points hc f
  rw [tot_add, tot_add] at this
  have e : tot D f (fun q => q.n) = 0 := (tot_manh hm f).1
  have e' : tot D f (fun q => q.p) = 0 := (tot_manh hm f).2
  rw [e, e', zero_add, add_zero] at this
  exact this

theorem cover_data90 {D : List VC} (hm : Manhattan D) (hc : Closed D) (q : ℚ × ℚ) : Spec.cover (data90 D) q.1 q.2 = depth D q := by
  rw [depth_tot, (tot_manh hm _).1, (tot_manh hm _).2, zero_add, add_zero, tot_zv hm hc, ← sum90]
  unfold Spec.cover reach
  simp

theorem valid90 {umin umax : Int} {D : List VC} (hm : Manhattan D) (hc : Closed D) (hr : InRange umin umax D) :
    Spec.Valid umin umax (to90 D) := by
  obtain ⟨h1, h2, h3, h4⟩ := to90_eq D
  refine ⟨Or.inr h1, fun h => ?_, fun h => ?_, ?_, ?_⟩
  · rw [h2, h4 h]; exact List.Pairwise.nil
  · rw [h2, h3 h]; exact ⟨by simp, by simp, fun x y => Or.inl rfl⟩
  · rw [h2]
    constructor
    · intro a
      have := sum90 D (fun p => decide (p.1 = a))
      simp only [decide_eq_true_eq] at this
      rw [this]; exact hc.vert a
    · intro b
      have := sum90 D (fun p => decide (p.2 = b))
      simp only [decide_eq_true_eq] at this
      rw [this, ← tot_zv hm hc]; exact hc.flat b
  · rw [h2]
    intro v hv
    unfold data90 at hv
    obtain ⟨u, hu, rfl⟩ := List.mem_map.1 hv
    obtain ⟨hu1, hu2⟩ := List.mem_filter.1 hu
    have hn : u.2 ≠ ⟨0, 0, 0, 0⟩ := by
      intro e; rw [e] at hu2; simp at hu2
    have := hr u hu1
    exact ⟨this.1, this.2 hn⟩

/-- The vertices `insert90` makes. -/
def of90 (d : List V) : List VC := d.map (fun v => ((v.x, v.y), ⟨0, v.c, 0, v.c⟩))

theorem tot_of90 (d : List V) (f : P → Bool) : (tot (of90 d) f Quad.n = 0 ∧ tot (of90 d) f Quad.p = 0) ∧
    tot (of90 d) f Quad.z = (d.map (fun v => if f (v.x, v.y) = true then v.c else 0)).sum ∧
    tot (of90 d) f Quad.v = (d.map (fun v => if f (v.x, v.y) = true then v.c else 0)).sum := by
  unfold of90
  induction d with
  | nil => exact ⟨⟨rfl, rfl⟩, rfl, rfl⟩
  | cons v d ih =>
    obtain ⟨⟨h1, h2⟩, h3, h4⟩ := ih
    simp only [List.map_cons, tot_cons, h1, h2, h3, h4, List.sum_cons]
    simp

theorem of90_valid {umin umax : Int} {d : List V} (e : List VC) (h : Spec.Valid umin umax ⟨Isotropy.VERTICAL, d, false, false⟩) :
    Valid umin umax ⟨e, of90 d, false, false, true⟩ ∧ ∀ q, depth (of90 d) q = Spec.cover d q.1 q.2 := by
  have hd : ∀ q, depth (of90 d) q = Spec.cover d q.1 q.2 := by
    intro q
    rw [depth_tot, (tot_of90 d _).1.1, (tot_of90 d _).1.2, (tot_of90 d _).2.1, zero_add, add_zero]
    unfold Spec.cover reach
    simp
  refine ⟨⟨fun _ => ?_, fun _ q => ?_, fun _ v hv => ?_, ⟨fun p => ?_, fun x => ?_, fun k => ?_, fun k => ?_, fun k => ?_⟩, ?_⟩, hd⟩
  · have := h.sorted rfl
    unfold of90
    rw [List.pairwise_map]
    refine this.imp (fun {a b} hab => ?_)
    unfold Spec.VLex at hab; unfold Spec.Deg45.Lex
    simp only; omega
  · simp only; rw [hd]; exact (h.clean rfl).2.2 q.1 q.2
  · unfold of90 at hv
    obtain ⟨u, -, rfl⟩ := List.mem_map.1 hv
    exact ⟨rfl, rfl⟩
  · rw [tot_add, tot_add]
    show tot (of90 d) _ Quad.n + tot (of90 d) _ Quad.z + tot (of90 d) _ Quad.p = tot (of90 d) _ Quad.v
    rw [(tot_of90 d _).1.1, (tot_of90 d _).1.2, (tot_of90 d _).2.1, (tot_of90 d _).2.2]; simp
  · simp only; rw [(tot_of90 d _).2.2]
    have := h.closed.1 x
    simpa using this
  · exact (tot_of90 d _).1.1
  · simp only; rw [(tot_of90 d _).2.1]
    have := h.closed.2 k
    simpa using this
  · exact (tot_of90 d _).1.2
  · intro v hv
    unfold of90 at hv
    obtain ⟨u, hu, rfl⟩ := List.mem_map.1 hv
    have := h.range u hu
    exact ⟨this.1, fun _ => this.2⟩

theorem insert90_eq (e : List VC) (d : List V) (b c : Bool) :
    ({ ({ S45.new with err := e }).insert90 ⟨Isotropy.VERTICAL, d, b, c⟩ false with
        dirty := false, unsorted := false, manh := true } : S45) = ⟨e, of90 d, false, false, true⟩ := by
  simp [S45.insert90, S45.new, of90]

/-! ### The set operations -/

/-- The meaning of the number of an operation. -/
def holds2 (op : Nat) (a b : Prop) : Prop :=
  if op = 0 then a ∨ b else if op = 1 then a ∧ b else if op = 2 then a ∧ ¬ b else (a ∧ ¬ b) ∨ (¬ a ∧ b)

theorem logic2_iff {op : Nat} (h : op < 4) (a b : Int) : logic2 op (a, b) = true ↔ holds2 op (0 < a) (0 < b) := by
  unfold logic2 holds2
  obtain rfl | rfl | rfl | rfl : op = 0 ∨ op = 1 ∨ op = 2 ∨ op = 3 := by omega
  all_goals simp
  by_cases c : 0 < a <;> by_cases c' : 0 < b <;> simp [c, c'] <;> omega

theorem code90_iff {op : Nat} (h : op < 4) (a b : Int) : code90 op a b = true ↔ holds2 op (0 < a) (0 < b) := by
  unfold code90 holds2
  obtain rfl | rfl | rfl | rfl : op = 0 ∨ op = 1 ∨ op = 2 ∨ op = 3 := by omega
  all_goals simp [binaryOr, binaryAnd, binaryXor, binaryNot]
  by_cases c : 0 < a <;> by_cases c' : 0 < b <;> simp [c, c'] <;> omega

theorem grid_manh {D : List VC} (h : Manhattan D) : OnGrid D := by
  intro v hv hn
  have := h v hv
  rcases hn with c | c
  · exact absurd this.1 c
  · exact absurd this.2 c

open Classical in
theorem applyBool_spec {umin umax : Int} {op : Nat} (hop : op < 4) {s t : S45} (hs : Valid umin umax s) (ht : Valid umin umax t) :
    (∃ u, s.applyBool op umin umax t = .ok u ∧ Valid umin umax u ∧ (u.dirty = false ∧ u.unsorted = false) ∧ u.err = s.err ++ t.err ∧
      (∀ q, depth u.data q = if holds2 op (0 < depth s.data q) (0 < depth t.data q) then 1 else 0) ∧
      (OnGrid s.data → OnGrid t.data → OnGrid u.data)) ∨
    (s.applyBool op umin umax t = .fail .precision ∧ ¬ (s.manh = true ∧ t.manh = true) ∧ ¬ (OnGrid s.data ∧ OnGrid t.data)) := by
  unfold S45.applyBool
  by_cases c : (s.manh && t.manh) = true
  · rw [if_pos c]
    left
    have ⟨c1, c2⟩ := (Bool.and_eq_true _ _ ▸ c : s.manh = true ∧ t.manh = true)
    have vs := valid90 (hs.manh c1) hs.closed hs.range
    have vt := valid90 (ht.manh c2) ht.closed ht.range
    obtain ⟨d, e, h1, h2, h3, h4⟩ := Set90.scan2 (f := code90 op) (umin := umin) (umax := umax)
      (by have := (code90_iff hop 0 0).not; rw [Bool.eq_false_iff, ne_eq, this]; unfold holds2; split_ifs <;> simp)
      vs.sortedData vt.sortedData vs.sort.closed vt.sort.closed vs.sort.range vt.sort.range (fun a y => rfl) (fun a y => rfl)
    rw [e]
    simp only
    rw [insert90_eq]
    obtain ⟨u1, u2⟩ := of90_valid (s.err ++ t.err) (Set90.valid_out (umin := umin) (umax := umax) (o := Isotropy.VERTICAL) (Or.inr rfl) h1 h2 h3 h4 false false)
    refine ⟨_, rfl, u1, ⟨rfl, rfl⟩, rfl, fun q => ?_, fun _ _ => grid_manh (u1.manh rfl)⟩
    simp only
    have k : ∀ D : List VC, Manhattan D → Closed D → coverZ (to90 D).sort.data ⌊q.1⌋ ⌊q.2⌋ = depth D q := by
      intro D hD hD'
      rw [← cover_data90 hD hD', Set90.cover_eq, ← (to90_eq D).2.1]
      exact Set90.coverZ_perm (Set90.sort_facts _).2.2.2 _ _
    rw [u2, Set90.cover_eq, h4, k s.data (hs.manh c1) hs.closed, k t.data (ht.manh c2) ht.closed]
    by_cases ch : holds2 op (0 < depth s.data q) (0 < depth t.data q)
    · rw [if_pos ch, (code90_iff hop _ _).2 ch]; rfl
    · rw [if_neg ch, Bool.eq_false_iff.2 (fun h => ch ((code90_iff hop _ _).1 h))]; rfl
  · rw [if_neg c]
    have g0 : logic2 op (0 : Int × Int) = false := by
      have := (logic2_iff hop 0 0).not
      rw [Bool.eq_false_iff, ne_eq]; show ¬ logic2 op (0, 0) = true
      rw [this]; unfold holds2; split_ifs <;> simp
    have ps := (sort_facts s).1
    have pt := (sort_facts t).1
    rcases boolean45_spec (umin := umin) (umax := umax) g0 (s.err ++ t.err) (sorted_data hs) (sorted_data ht)
      (valid_sort hs).closed (valid_sort ht).closed (valid_sort hs).range (valid_sort ht).range with ⟨d, m, e1, e2, e3, e4⟩ | ⟨e1, e2⟩
    · left
      rw [e1]
      refine ⟨_, rfl, e2, ⟨rfl, rfl⟩, rfl, fun q => ?_, fun h1 h2 => e4 (fun v hv => h1 v (ps.mem_iff.1 hv)) (fun v hv => h2 v (pt.mem_iff.1 hv))⟩
      simp only
      rw [e3, depth_perm ps, depth_perm pt]
      unfold gi
      by_cases ch : holds2 op (0 < depth s.data q) (0 < depth t.data q)
      · rw [if_pos ch, (logic2_iff hop _ _).2 ch]; rfl
      · rw [if_neg ch, Bool.eq_false_iff.2 (fun h => ch ((logic2_iff hop _ _).1 h))]; rfl
    · right
      rw [e1]
      refine ⟨rfl, by simpa using c, fun h => e2 ⟨fun v hv => h.1 v (ps.mem_iff.1 hv), fun v hv => h.2 v (pt.mem_iff.1 hv)⟩⟩

/-- What the Manhattan branch asks of a depth. -/
def test90 (op : Nat) (c : Int) : Bool := if op = 0 then decide (0 < c) else if op = 1 then decide (1 < c) else posUnary c

theorem clean90_spec {umin umax : Int} {op : Nat} (hop : op = 0 ∨ op = 1 ∨ op = 3) (hu : umin ≤ umax) {p : Set90.PSet}
    (h : Spec.Valid umin umax p) (ho : p.orient = Isotropy.VERTICAL) (hd : p.dirty = false → p.data = [])
    (hout : ∀ q : ℚ × ℚ, (q.1 < umin ∨ (umax : ℚ) ≤ q.1 ∨ q.2 < umin ∨ (umax : ℚ) ≤ q.2) → Spec.cover p.data q.1 q.2 = 0) :
    ∃ d, clean90 op umin umax p = some ⟨Isotropy.VERTICAL, d, false, false⟩ ∧ Spec.Valid umin umax ⟨Isotropy.VERTICAL, d, false, false⟩ ∧
      ∀ q : ℚ × ℚ, Spec.cover d q.1 q.2 = ind (test90 op (Spec.cover p.data q.1 q.2)) := by
  obtain ⟨f1, f2, f3, f4⟩ := Set90.sort_facts p
  by_cases hdirty : p.dirty = true
  swap
  · have hd0 : p.dirty = false := by simpa using hdirty
    have hdata := hd hd0
    have hs : p.sort = ⟨Isotropy.VERTICAL, [], false, false⟩ := by
      have h1 : p.sort.data = [] := by rw [hdata] at f4; exact f4.eq_nil
      rcases hps : p.sort with ⟨o, d, x, y⟩
      rw [hps] at f1 f2 f3 h1
      simp only at f1 f2 f3 h1
      rw [f1, f2, f3, h1, ho, hd0]
    refine ⟨[], ?_, ⟨Or.inr rfl, fun _ => List.Pairwise.nil, fun _ => ⟨by simp, by simp, fun x y => Or.inl rfl⟩,
      ⟨fun _ => rfl, fun _ => rfl⟩, by intro v hv; simp at hv⟩, fun q => ?_⟩
    · unfold clean90
      rcases hop with rfl | rfl | rfl <;> simp [Set90.PSet.clean, Set90.PSet.selfIntersect, Set90.PSet.selfXor, hs]
    · rw [hdata]
      rcases hop with rfl | rfl | rfl <;> rfl
  · rcases hop with rfl | rfl | rfl
    · obtain ⟨t, e, t1, t2, t3, t4, t5, t6⟩ := Set90.clean_spec h
      rcases t with ⟨o, d, x, y⟩
      simp only at t1 t2 t3 t6
      subst t2; subst t3
      rw [t1, ho] at e t5
      refine ⟨d, by simpa [clean90] using e, t5, fun q => ?_⟩
      rw [Set90.cover_eq, t6, Set90.cover_eq]; rfl
    · have hv := Set90.insertRect_valid h.sort ⟨⟨umin, umax⟩, ⟨umin, umax⟩⟩ true (by simp only [Spec.RectIn]; omega)
      obtain ⟨t, e, t1, t2, t3, t4, t5, t6⟩ := Set90.clean_spec hv
      have hdep := fun q => Set90.insertRect_depth (s := p.sort) (by rw [f1]; exact h.orient) ⟨⟨umin, umax⟩, ⟨umin, umax⟩⟩ true hu hu q
      have horient : (p.sort.insertRect ⟨⟨umin, umax⟩, ⟨umin, umax⟩⟩ true).orient = Isotropy.VERTICAL := by
        rw [Set90.insertRect_eq]; simp only; rw [f1, ho]
      rw [horient] at t1
      rcases t with ⟨o, d, x, y⟩
      simp only at t1 t2 t3 t6
      subst t1; subst t2; subst t3
      refine ⟨d, ?_, t5, fun q => ?_⟩
      · simp [clean90, Set90.PSet.selfIntersect, f2, hdirty, e]
      · have hq := hdep q
        rw [Set90.depth_def, if_pos horient, Set90.sort_depth] at hq
        rw [Set90.cover_eq, t6, hq]
        have hps : Spec.depth p q = Spec.cover p.data q.1 q.2 := by unfold Spec.depth; rw [if_pos ho]
        rw [hps]
        by_cases c : (umin : ℚ) ≤ q.1 ∧ q.1 < umax ∧ (umin : ℚ) ≤ q.2 ∧ q.2 < umax
        · rw [if_pos c]
          congr 1
          have e1 : test90 1 (Spec.cover p.data q.1 q.2) = decide (1 < Spec.cover p.data q.1 q.2) := rfl
          rw [e1, if_pos rfl, decide_eq_decide]
          omega
        · have h0 := hout q (by
            by_contra hc
            push Not at hc
            exact c ⟨hc.1, hc.2.1, hc.2.2.1, hc.2.2.2⟩)
          rw [if_neg c, h0]
          rfl
    · obtain ⟨d, e, hc, hd', hv⟩ := Set90.scan1 h posUnary rfl
      rw [ho] at hv
      refine ⟨d, ?_, hv, fun q => ?_⟩
      · simp [clean90, Set90.PSet.selfXor, f2, hdirty, e, f1, f3, ho]
      · rw [Set90.cover_eq, hd', Set90.cover_eq]; rfl

theorem applyUnary_spec {umin umax : Int} {op : Nat} (hop : op = 0 ∨ op = 1 ∨ op = 3) (hu : umin ≤ umax) {s : S45} (hs : Valid umin umax s) :
    (∃ u, s.applyUnary op umin umax = .ok u ∧ Valid umin umax u ∧ (u.dirty = false ∧ u.unsorted = false) ∧ u.err = s.err ∧
      (∀ q, depth u.data q = ind ((if s.manh then test90 op else logic1 op) (depth s.data q))) ∧ (OnGrid s.data → OnGrid u.data)) ∨
    (s.applyUnary op umin umax = .fail .precision ∧ s.manh = false ∧ ¬ OnGrid s.data) := by
  unfold S45.applyUnary
  by_cases c : s.manh = true
  · rw [if_pos c]
    left
    have hm := hs.manh c
    have vs := valid90 hm hs.closed hs.range
    obtain ⟨g1, g2, g3, g4⟩ := to90_eq s.data
    obtain ⟨f1, f2, f3, f4⟩ := Set90.sort_facts (to90 s.data)
    have hcov : ∀ q : ℚ × ℚ, Spec.cover (to90 s.data).sort.data q.1 q.2 = depth s.data q := by
      intro q
      rw [Set90.cover_eq, Set90.coverZ_perm f4, g2, ← Set90.cover_eq]
      exact cover_data90 hm hs.closed q
    obtain ⟨d, e, v, hd⟩ := clean90_spec hop hu vs.sort (by rw [f1, g1]) (by
      rw [f2]; intro h
      rw [g2, g3 h] at f4; exact f4.eq_nil) (by
      intro q hq; rw [hcov]; exact depth_box_le hs.closed (box_of_range hs.range) hq)
    rw [e]
    simp only
    rw [insert90_eq]
    obtain ⟨u1, u2⟩ := of90_valid s.err v
    refine ⟨_, rfl, u1, ⟨rfl, rfl⟩, rfl, fun q => ?_, fun _ => grid_manh (u1.manh rfl)⟩
    simp only
    rw [u2, hd, hcov, if_pos c]
  · rw [if_neg c]
    have g0 : logic1 op (0 : Int) = false := by rcases hop with rfl | rfl | rfl <;> rfl
    have ps := (sort_facts s).1
    rcases unary45_spec (umin := umin) (umax := umax) g0 s.err (sorted_data hs) (valid_sort hs).closed (valid_sort hs).range with
      ⟨d, m, e1, e2, e3, e4⟩ | ⟨e1, e2⟩
    · left
      rw [e1]
      refine ⟨_, rfl, e2, ⟨rfl, rfl⟩, rfl, fun q => ?_, fun h1 => e4 (fun v hv => h1 v (ps.mem_iff.1 hv))⟩
      simp only
      rw [e3, depth_perm ps, if_neg c]
      unfold gi ind; cases logic1 op (depth s.data q) <;> rfl
    · right
      rw [e1]
      exact ⟨rfl, by simpa using c, fun h => e2 (fun v hv => h v (ps.mem_iff.1 hv))⟩

theorem clean_spec {umin umax : Int} (hu : umin ≤ umax) {s : S45} (hs : Valid umin umax s) :
    (∃ u, s.clean umin umax = .ok u ∧ Valid umin umax u ∧ (u.dirty = false ∧ u.unsorted = false) ∧ u.err = s.err ∧
      (∀ q, depth u.data q = ind (decide (0 < depth s.data q))) ∧ (OnGrid s.data → OnGrid u.data)) ∨
    (s.clean umin umax = .fail .precision ∧ s.manh = false ∧ ¬ OnGrid s.data) := by
  obtain ⟨f1, f2, f3, f4, f5⟩ := sort_facts s
  unfold S45.clean
  by_cases c : s.sort.dirty = true
  · rw [if_pos c]
    rcases applyUnary_spec (op := 0) (Or.inl rfl) hu (valid_sort hs) with ⟨u, e, h1, h2, h3, h4, h5⟩ | ⟨e, h1, h2⟩
    · left
      refine ⟨u, e, h1, h2, by rw [h3, f5], fun q => ?_, fun g => h5 (fun v hv => g v (f1.mem_iff.1 hv))⟩
      rw [h4, depth_perm f1]
      congr 1
      by_cases cm : s.sort.manh = true
      · rw [if_pos cm]; rfl
      · rw [if_neg cm]; rfl
    · right
      exact ⟨e, by rw [← f4]; exact h1, fun h => h2 (fun v hv => h v (f1.mem_iff.1 hv))⟩
  · rw [if_neg c]
    left
    have c' : s.dirty = false := by rw [← f2]; simpa using c
    refine ⟨s.sort, rfl, valid_sort hs, ⟨by rw [f2, c'], f3⟩, f5, fun q => ?_, fun g v hv => g v (f1.mem_iff.1 hv)⟩
    rw [depth_perm f1]
    rcases hs.clean c' q with h | h <;> rw [h] <;> rfl

end Verif.Set45
