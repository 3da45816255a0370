import Verif.Proofs.S45Map
import Verif.Proofs.Set45Set
import Verif.Model.Merge45
import Verif.Spec.Merge45
/-! # The data of `property_merge_45` and its scan -/
namespace Verif.Merge45
open Verif.Deg45 Verif.Set45 Verif.Spec.Deg45 Verif.Spec.Merge45

theorem one_get (k c j : Int) : (one k c).get j = if k = j then c else 0 := by
  unfold one
  by_cases h : c = 0
  · rw [dif_pos h, h, Cnt.get_zero, ite_self]
  · rw [dif_neg h]; unfold Cnt.get; rw [Arb.get_cons, Arb.get_nil, add_zero]

theorem one_zero (k : Int) : one k 0 = 0 := by unfold one; rw [dif_pos rfl]

theorem one_add (k a b : Int) : one k (a + b) = one k a + one k b := by
  refine Cnt.ext_get (fun j => ?_)
  rw [Cnt.get_add, one_get, one_get, one_get]
  split_ifs <;> simp

/-- The counts of a vertex under a property. -/
def oneQ (k : Int) (q : Quad Int) : Quad Cnt := ⟨one k q.n, one k q.z, one k q.p, one k q.v⟩

theorem populate_tot (k : Int) (f : P → Bool) {wC : Quad Cnt → Cnt} {wI : Quad Int → Int} (hw : ∀ q, wC (oneQ k q) = one k (wI q)) :
    ∀ D : List VC, tot (populate D k) f wC = one k (tot D (fun p => f (p.1 * 2, p.2 * 2)) wI)
  | [] => (one_zero k).symm
  | v :: D => by
    have e : populate (v :: D) k = ((v.1.1 * 2, v.1.2 * 2), oneQ k v.2) :: populate D k := rfl
    rw [e, tot_cons, tot_cons, one_add, populate_tot k f hw D]
    congr 1
    dsimp only
    by_cases c : f (v.1.1 * 2, v.1.2 * 2) = true
    · rw [if_pos c, if_pos c, hw]
    · rw [if_neg c, if_neg c, one_zero]

theorem sum3 (k : Int) (q : Quad Int) : (oneQ k q).n + (oneQ k q).z + (oneQ k q).p = one k (q.n + q.z + q.p) := by
  rw [one_add, one_add]; rfl

theorem tot_false (D : List VC) (w : Quad Int → Int) {f : P → Bool} (h : ∀ p, f p = false) : tot D f w = 0 := by
  induction D with
  | nil => rfl
  | cons v D ih => rw [tot_cons, ih, h]; simp

theorem tot_half (D : List VC) (w : Quad Int → Int) (φ : P → Int) (hφ : ∀ p : P, φ (p.1 * 2, p.2 * 2) = φ p * 2)
    (h : ∀ k, tot D (fun a => decide (φ a = k)) w = 0) (k : Int) : tot D (fun a => decide (φ (a.1 * 2, a.2 * 2) = k)) w = 0 := by
  by_cases c : k % 2 = 0
  · rw [← h (k / 2)]
    refine tot_congr _ (fun v _ => ?_)
    rw [decide_eq_decide, hφ]
    omega
  · exact tot_false D w (fun p => by rw [decide_eq_false_iff_not, hφ]; omega)

theorem populate_closed {D : List VC} (h : Closed D) (k : Int) : Closed (populate D k) := by
  refine ⟨fun p => ?_, fun x => ?_, fun x => ?_, fun x => ?_, fun x => ?_⟩
  · rw [populate_tot k _ (sum3 k), populate_tot k (wI := Quad.v) _ (fun _ => rfl)]
    congr 1
    by_cases c : p.1 % 2 = 0 ∧ p.2 % 2 = 0
    · have e : ∀ a : P, decide ((a.1 * 2, a.2 * 2) = p) = decide (a = (p.1 / 2, p.2 / 2)) := by
        intro a; rw [decide_eq_decide, Prod.ext_iff, Prod.ext_iff]; dsimp only; omega
      simp only [e]
      exact h.point _
    · have e : ∀ a : P, decide ((a.1 * 2, a.2 * 2) = p) = false := by
        intro a; rw [decide_eq_false_iff_not, Prod.ext_iff]; dsimp only; omega
      rw [tot_false _ _ e, tot_false _ _ e]
  · rw [populate_tot k (wI := Quad.v) _ (fun _ => rfl)]
    exact (congrArg _ (tot_half D _ (fun p => p.1) (fun p => rfl) h.vert x)).trans (one_zero k)
  · rw [populate_tot k (wI := Quad.n) _ (fun _ => rfl)]
    exact (congrArg _ (tot_half D _ (fun p => p.1 + p.2) (fun p => by dsimp only; ring) h.down x)).trans (one_zero k)
  · rw [populate_tot k (wI := Quad.z) _ (fun _ => rfl)]
    exact (congrArg _ (tot_half D _ (fun p => p.2) (fun p => rfl) h.flat x)).trans (one_zero k)
  · rw [populate_tot k (wI := Quad.p) _ (fun _ => rfl)]
    exact (congrArg _ (tot_half D _ (fun p => p.2 - p.1) (fun p => by dsimp only; ring) h.up x)).trans (one_zero k)

theorem reach_half (q : ℚ × ℚ) (r : Int) (p : P) : reach q r (p.1 * 2, p.2 * 2) = reach (half q) r p := by
  unfold reach half
  rw [decide_eq_decide]
  push_cast
  constructor
  · rintro ⟨h1, h2⟩; exact ⟨by linarith, by linarith⟩
  · rintro ⟨h1, h2⟩; exact ⟨by linarith, by linarith⟩

theorem populate_depth (D : List VC) (k : Int) (q : ℚ × ℚ) : depth (populate D k) q = one k (depth D (half q)) := by
  rw [depth_tot, depth_tot, one_add, one_add, populate_tot k (wI := Quad.n) _ (fun _ => rfl), populate_tot k (wI := Quad.z) _ (fun _ => rfl),
    populate_tot k (wI := Quad.p) _ (fun _ => rfl)]
  simp only [reach_half]

theorem populate_even (D : List VC) (k : Int) : ∀ v ∈ populate D k, v.1.1 % 2 = 0 ∧ v.1.2 % 2 = 0 := by
  intro v hv
  obtain ⟨u, _, rfl⟩ := List.mem_map.1 hv
  dsimp only
  omega

/-! ### Inserting -/

/-- What is known of the data. -/
structure Data (bmin : Int) (L : List (S45 × Int)) (t : TSD) : Prop where
  closed : Closed t
  even : ∀ v ∈ t, v.1.1 % 2 = 0 ∧ v.1.2 % 2 = 0
  ge : ∀ v ∈ t, bmin ≤ v.1.1
  depth : ∀ q k, (Spec.Deg45.depth t q).get k = (L.map (fun a => if a.2 = k ∧ 0 < Spec.Deg45.depth a.1.data (half q) then (1 : Int) else 0)).sum

theorem depth_app {C : Type} [AddCommGroup C] (a b : List (Vert C)) (q : ℚ × ℚ) : depth (a ++ b) q = depth a q + depth b q := by simp [Spec.Deg45.depth]

theorem closed_app {C : Type} [AddCommGroup C] {a b : List (Vert C)} (ha : Closed a) (hb : Closed b) : Closed (a ++ b) := by
  refine ⟨fun p => ?_, fun x => ?_, fun x => ?_, fun x => ?_, fun x => ?_⟩
  · rw [tot_append, tot_append, ha.point, hb.point]
  · rw [tot_append, ha.vert, hb.vert, add_zero]
  · rw [tot_append, ha.down, hb.down, add_zero]
  · rw [tot_append, ha.flat, hb.flat, add_zero]
  · rw [tot_append, ha.up, hb.up, add_zero]

theorem data_nil (bmin : Int) : Data bmin [] [] := by
  refine ⟨⟨fun p => rfl, fun x => rfl, fun x => rfl, fun x => rfl, fun x => rfl⟩, by simp, by simp, fun q k => ?_⟩
  simp [Spec.Deg45.depth, Cnt.get_zero]

theorem insert_data {umin umax bmin : Int} (hu : umin ≤ umax) (hb : bmin ≤ umin * 2) {L : List (S45 × Int)} {t t' : TSD} (d : Data bmin L t) {s : S45} (hs : Valid umin umax s)
    {k : Int} (e : insert umin umax t s k = some t') : Data bmin (L ++ [(s, k)]) t' := by
  unfold insert at e
  rcases clean_spec hu hs with ⟨u, e1, h1, h2, -, h4, -⟩ | ⟨e1, -⟩
  · rw [e1] at e
    cases e
    refine ⟨closed_app d.closed (populate_closed h1.closed k), ?_, ?_, fun q j => ?_⟩
    · intro v hv
      rcases List.mem_append.1 hv with hv | hv
      · exact d.even v hv
      · exact populate_even _ _ v hv
    · intro v hv
      rcases List.mem_append.1 hv with hv | hv
      · exact d.ge v hv
      · obtain ⟨w, hw, rfl⟩ := List.mem_map.1 hv
        have := (h1.range w hw).1
        dsimp only
        omega
    · rw [depth_app, Cnt.get_add, d.depth, populate_depth, one_get, List.map_append, List.sum_append, h4]
      congr 1
      simp only [List.map_cons, List.map_nil, List.sum_cons, List.sum_nil, add_zero]
      by_cases c1 : k = j
      · by_cases c2 : 0 < Spec.Deg45.depth s.data (half q)
        · simp [c1, c2, BooleanOp.ind]
        · simp [c1, c2, BooleanOp.ind]
      · simp [c1]
  · rw [e1] at e
    cases e

theorem insertAll_data {umin umax bmin : Int} (hu : umin ≤ umax) (hb : bmin ≤ umin * 2) : ∀ (L M : List (S45 × Int)) (t t' : TSD), Data bmin M t → (∀ a ∈ L, Valid umin umax a.1) →
    insertAll umin umax L t = some t' → Data bmin (M ++ L) t'
  | [], M, t, t', d, _, e => by cases e; rw [List.append_nil]; exact d
  | a :: L, M, t, t', d, h, e => by
    unfold insertAll at e
    rcases e1 : insert umin umax t a.1 a.2 with _ | t1
    · rw [e1] at e; cases e
    · rw [e1] at e
      have := insertAll_data hu hb L (M ++ [a]) t1 t' (insert_data hu hb d (h a List.mem_cons_self) e1) (fun b hb => h b (List.mem_cons_of_mem _ hb)) e
      rwa [List.append_assoc] at this

/-- Inserting succeeds if every set is on the grid or rectilinear. -/
theorem insertAll_ok {umin umax : Int} (hu : umin ≤ umax) : ∀ (L : List (S45 × Int)) (t : TSD), (∀ a ∈ L, Valid umin umax a.1 ∧ (a.1.manh = true ∨ OnGrid a.1.data)) →
    ∃ t', insertAll umin umax L t = some t'
  | [], t, _ => ⟨t, rfl⟩
  | a :: L, t, h => by
    obtain ⟨h1, h2⟩ := h a List.mem_cons_self
    unfold insertAll insert
    rcases clean_spec hu h1 with ⟨u, e1, -⟩ | ⟨-, h3, h4⟩
    · rw [e1]
      exact insertAll_ok hu L _ (fun b hb => h b (List.mem_cons_of_mem _ hb))
    · rcases h2 with h2 | h2
      · rw [h2] at h3; cases h3
      · exact absurd h2 h4

/-! ### Sorting and gathering -/

def Add1 {C : Type} [AddCommGroup C] (w : Quad C → C) : Prop := ∀ a b : Quad C, w (a.add b) = w a + w b

theorem gather_tot (f : P → Bool) {w : Quad Cnt → Cnt} (hw : Add1 w) : ∀ t : TSD, tot (gather t) f w = tot t f w
  | [] => rfl
  | v :: r => by
    have ih := gather_tot f hw r
    unfold gather
    rw [tot_cons, ← ih]
    rcases gather r with _ | ⟨u, s⟩
    · rfl
    · dsimp only
      by_cases c : u.1 = v.1
      · rw [if_pos c, tot_cons, tot_cons, c, hw]
        dsimp only
        split_ifs <;> abel
      · rw [if_neg c]; rfl

theorem gather_pt : ∀ (t : TSD), ∀ v ∈ gather t, ∃ u ∈ t, u.1 = v.1
  | [], v, hv => by simp [gather] at hv
  | a :: r, v, hv => by
    have ih := gather_pt r
    unfold gather at hv
    rcases hg : gather r with _ | ⟨u, s⟩
    · rw [hg] at hv
      simp at hv
      exact ⟨a, List.mem_cons_self, by rw [hv]⟩
    · rw [hg] at hv ih
      dsimp only at hv
      by_cases c : u.1 = a.1
      · rw [if_pos c] at hv
        rcases List.mem_cons.1 hv with rfl | hv
        · exact ⟨a, List.mem_cons_self, rfl⟩
        · obtain ⟨b, hb, e⟩ := ih v (List.mem_cons_of_mem _ hv)
          exact ⟨b, List.mem_cons_of_mem _ hb, e⟩
      · rw [if_neg c] at hv
        rcases List.mem_cons.1 hv with rfl | hv
        · exact ⟨_, List.mem_cons_self, rfl⟩
        · obtain ⟨b, hb, e⟩ := ih v hv
          exact ⟨b, List.mem_cons_of_mem _ hb, e⟩

theorem gather_sorted : ∀ (t : TSD), t.Pairwise Spec.Deg45.Lex → (gather t).Pairwise Spec.Deg45.Lex
  | [], _ => List.Pairwise.nil
  | a :: r, h => by
    obtain ⟨h1, h2⟩ := List.pairwise_cons.1 h
    have ih := gather_sorted r h2
    have hp := gather_pt r
    unfold gather
    rcases hg : gather r with _ | ⟨u, s⟩
    · simp
    · rw [hg] at ih hp
      have ha : ∀ v ∈ u :: s, Spec.Deg45.Lex a v := by
        intro v hv
        obtain ⟨b, hb, e⟩ := hp v hv
        have := h1 b hb
        unfold Spec.Deg45.Lex at this ⊢
        rwa [e] at this
      dsimp only
      by_cases c : u.1 = a.1
      · rw [if_pos c]
        obtain ⟨i1, i2⟩ := List.pairwise_cons.1 ih
        refine List.pairwise_cons.2 ⟨fun v hv => ?_, i2⟩
        have := ha v (List.mem_cons_of_mem _ hv)
        exact this
      · rw [if_neg c]
        exact List.pairwise_cons.2 ⟨ha, ih⟩

/-- The data as it goes into the scanline. -/
def ready (t : TSD) : TSD := gather (t.insertionSort (fun v w => lessPt w v = false))

theorem sort_sorted (t : TSD) : (t.insertionSort (fun v w => lessPt w v = false)).Pairwise Spec.Deg45.Lex := by
  have ht : ∀ a b : Vert Cnt, lessPt b a = false ∨ lessPt a b = false := by
    intro a b
    simp only [lessPt, Bool.or_eq_false_iff, Bool.and_eq_false_iff, decide_eq_false_iff_not, beq_eq_false_iff_ne, ne_eq]
    omega
  have htr : ∀ a b c : Vert Cnt, lessPt b a = false → lessPt c b = false → lessPt c a = false := by
    intro a b c
    simp only [lessPt, Bool.or_eq_false_iff, Bool.and_eq_false_iff, decide_eq_false_iff_not, beq_eq_false_iff_ne, ne_eq]
    omega
  haveI : Std.Total (fun a b : Vert Cnt => lessPt b a = false) := ⟨ht⟩
  haveI : IsTrans (Vert Cnt) (fun a b : Vert Cnt => lessPt b a = false) := ⟨fun a b c => htr a b c⟩
  refine (List.pairwise_insertionSort (fun a b : Vert Cnt => lessPt b a = false) t).imp ?_
  intro a b h
  simp only [lessPt, Bool.or_eq_false_iff, Bool.and_eq_false_iff, decide_eq_false_iff_not, beq_eq_false_iff_ne, ne_eq] at h
  unfold Spec.Deg45.Lex
  omega

theorem ready_tot (t : TSD) (f : P → Bool) {w : Quad Cnt → Cnt} (hw : Add1 w) : tot (ready t) f w = tot t f w := by
  unfold ready
  rw [gather_tot f hw, tot_perm (List.perm_insertionSort _ _)]

theorem ready_mem {t : TSD} {v : Vert Cnt} (hv : v ∈ ready t) : ∃ u ∈ t, u.1 = v.1 := by
  obtain ⟨u, hu, e⟩ := gather_pt _ v hv
  exact ⟨u, (List.perm_insertionSort _ _).mem_iff.1 hu, e⟩

theorem ready_data {bmin : Int} {L : List (S45 × Int)} {t : TSD} (d : Data bmin L t) : Data bmin L (ready t) ∧ (ready t).Pairwise Spec.Deg45.Lex := by
  refine ⟨⟨⟨fun p => ?_, fun x => ?_, fun x => ?_, fun x => ?_, fun x => ?_⟩, ?_, ?_, fun q k => ?_⟩, gather_sorted _ (sort_sorted t)⟩
  · rw [ready_tot _ _ (fun a b => by simp only [Quad.add]; abel), ready_tot _ _ (fun a b => rfl), d.closed.point]
  · rw [ready_tot _ _ (fun a b => rfl), d.closed.vert]
  · rw [ready_tot _ _ (fun a b => rfl), d.closed.down]
  · rw [ready_tot _ _ (fun a b => rfl), d.closed.flat]
  · rw [ready_tot _ _ (fun a b => rfl), d.closed.up]
  · intro v hv
    obtain ⟨u, hu, e⟩ := ready_mem hv
    rw [← e]; exact d.even u hu
  · intro v hv
    obtain ⟨u, hu, e⟩ := ready_mem hv
    rw [← e]; exact d.ge u hu
  · rw [depth_tot, ready_tot _ _ (fun a b => rfl), ready_tot _ _ (fun a b => rfl), ready_tot _ _ (fun a b => rfl), ← depth_tot, d.depth]

/-! ### The columns -/

theorem columns_bind {O O' : Type} (F : Fn Cnt O) (κ : O → List O') : ∀ (n : Nat) (st : St Cnt) (t : TSD) (out : List O),
    columns (F.bind κ) n st t (out.flatMap κ) = (columns F n st t out).map (fun o => o.flatMap κ)
  | _, st, [], out => by simp [columns, Except.map]
  | 0, st, v :: r, out => rfl
  | n + 1, st, v :: r, out => by
    unfold columns
    rw [scan_bind]
    rcases scan F st ((v :: r).takeWhile (fun w => decide (w.1.1 = v.1.1))) out with e | ⟨st1, out1⟩
    · rfl
    · exact columns_bind F κ n st1 _ out1

theorem perform_bind {O O' : Type} (F : Fn Cnt O) (κ : O → List O') (bmin : Int) (t : TSD) :
    perform (F.bind κ) bmin t = (perform F bmin t).map (fun o => o.flatMap κ) := columns_bind F κ _ _ _ []

theorem columns_spec {g : Cnt → Bool} {EV : Prop} (h0 : g 0 = false) : ∀ (n : Nat) (t done : TSD) (st : St Cnt) (out : List V45),
    Inv g EV st done out → InOK EV t → (∀ v ∈ t, st.x < v.1.1) ∨ Fresh st t → t.length ≤ n →
    (∃ st' out', columns (opFn g) n st t out = .ok out' ∧ Inv g EV st' (done ++ t) out') ∨ (columns (opFn g) n st t out = .error .precision ∧ ¬ EV)
  | n, [], done, st, out, i, _, _, _ => by
    refine Or.inl ⟨st, out, by unfold columns; rfl, by rw [List.append_nil]; exact i⟩
  | 0, v :: r, done, st, out, _, _, _, hn => by simp at hn
  | n + 1, v :: r, done, st, out, i, hin, hfr, hn => by
    have hge : ∀ w ∈ v :: r, v.1.1 ≤ w.1.1 := by
      intro w hw
      rcases List.mem_cons.1 hw with rfl | hw
      · exact le_refl _
      · have := (List.pairwise_cons.1 hin.sorted).1 w hw; omega
    obtain ⟨e1, e2⟩ := takeWhile_x hin.sorted hge
    unfold columns
    have hlt : ∀ u ∈ (v :: r).takeWhile (fun w => decide (w.1.1 = v.1.1)), ∀ w ∈ (v :: r).dropWhile (fun w => decide (w.1.1 = v.1.1)), u.1.1 < w.1.1 := by
      intro u hu w hw
      rw [e1] at hu
      rw [e2] at hw
      have h1 := (List.mem_filter.1 hu).2
      have h2 := (List.mem_filter.1 hw).2
      simp only [decide_eq_true_eq] at h1 h2
      omega
    have hsp := List.takeWhile_append_dropWhile (p := fun w : Vert Cnt => decide (w.1.1 = v.1.1)) (l := v :: r)
    obtain ⟨i1, i2⟩ := InOK.split (by rw [hsp]; exact hin) hlt
    have hfr1 : Fresh st ((v :: r).takeWhile (fun w => decide (w.1.1 = v.1.1))) := by
      have hsub : ∀ w ∈ (v :: r).takeWhile (fun w => decide (w.1.1 = v.1.1)), w ∈ v :: r := fun w hw => (List.takeWhile_sublist _).subset hw
      rcases hfr with h | h | h
      · exact Or.inl (fun w hw => h w (hsub w hw))
      · exact Or.inl (fun w hw => h w (hsub w hw))
      · exact Or.inr ⟨h.1, h.2.1, fun w hw => h.2.2 w (hsub w hw)⟩
    have hle : st.x ≤ v.1.1 := by
      rcases hfr with h | h | h
      · have := h v List.mem_cons_self; omega
      · have := h v List.mem_cons_self; omega
      · exact h.2.2 v List.mem_cons_self
    rcases scan_spec h0 i i1 hfr1 with ⟨st', out', es, j1, ⟨j2, j3⟩, j4⟩ | ⟨es, ne⟩
    · rw [es]
      dsimp only
      have hx : st'.x ≤ v.1.1 := j2 v.1.1 hle (fun w hw => by
        rw [e1] at hw
        have h1 := (List.mem_filter.1 hw).2
        simp only [decide_eq_true_eq] at h1
        omega)
      have := columns_spec h0 n _ _ st' out' j1 i2 (Or.inl (fun w hw => by
        rw [e2] at hw
        have h1 := (List.mem_filter.1 hw).2
        simp only [decide_eq_true_eq] at h1
        omega)) (by
          have hl : ((v :: r).dropWhile (fun w => decide (w.1.1 = v.1.1))).length < (v :: r).length := by
            rw [List.dropWhile_cons_of_pos (by simp)]
            have := List.length_dropWhile_le (fun w : Vert Cnt => decide (w.1.1 = v.1.1)) r
            simp only [List.length_cons]; omega
          omega)
      rw [List.append_assoc, hsp] at this
      exact this
    · rw [es]; exact Or.inr ⟨rfl, ne⟩

/-- The vertices of an output as data. -/
def asVC (out : List V45) : List VC := out.map (fun v => (v.pt, single v.rise v.count))

theorem asVC_same : ∀ {out : List V45}, (∀ v ∈ out, Rise v) → Same (asVC out) out
  | [], _ => fun f => by simp [asVC]
  | v :: out, h => by
    have ih := asVC_same (fun u hu => h u (List.mem_cons_of_mem _ hu))
    intro f
    obtain ⟨h1, h2, h3, h4⟩ := ih f
    obtain ⟨s1, s2, s3, s4⟩ := single_eq v.rise v.count (h v List.mem_cons_self)
    have e : asVC (v :: out) = (v.pt, single v.rise v.count) :: asVC out := rfl
    rw [e]
    simp only [tot_cons, osum_cons, h1, h2, h3, h4, s1, s2, s3, s4]
    refine ⟨?_, ?_, ?_, ?_⟩ <;> congr 1 <;> by_cases c : f v.pt = true <;> simp [c]

theorem perform_spec {bmin : Int} {L : List (S45 × Int)} {t : TSD} (d : Data bmin L t) {g : Cnt → Bool} (h0 : g 0 = false) :
    ∃ out, perform (opFn g) bmin t = .ok out ∧ ∀ q, depth (asVC out) q = gi g (depth (ready t) q) := by
  obtain ⟨d', hs⟩ := ready_data d
  have hon : OnGrid (ready t) := fun v hv _ => by have := d'.even v hv; omega
  have hi : Inv g (OnGrid (ready t)) ⟨[], [], bmin⟩ [] [] :=
    { dn := { good := { slope := by simp, sorted := List.Pairwise.nil, chain := by simp, orig := by simp,
                        qsorted := by simp [QSorted], qgt := by simp }
              rin := Eqv.refl _, rout := Eqv.refl _, bal := fun _ => rfl }
      even := by simp, inx := by simp, outx := by simp
      hist := fun q _ => by simp [Hist, rays, oRays, gi, h0] }
  rcases columns_spec h0 (ready t).length (ready t) [] ⟨[], [], bmin⟩ [] hi (inOK_of_closed hs d'.closed) (Or.inr (Or.inr ⟨by simp, List.Pairwise.nil, d'.ge⟩)) (le_refl _)
    with ⟨st, out, e, i⟩ | ⟨-, ne⟩
  · refine ⟨out, e, fun q => ?_⟩
    have hr : ∀ v ∈ out, Rise v := fun v hv => (i.outx v hv).2
    rw [same_depth (asVC_same hr) hr, depth_rays]
    exact end_hist h0 i d'.closed q
  · exact absurd hon ne

/-! ### The entries -/

theorem merge_bind {K : List Int} (hK : K ≠ []) : mergeFn.bind (fun a => if a.1 = K then [a.2] else []) = opFn (fun c : Cnt => decide (c.keys = K)) := by
  unfold Fn.bind mergeFn opFn
  congr 1
  funext c1 c2 pt rise low
  dsimp only
  have hk : K.isEmpty = false := by cases K with | nil => exact absurd rfl hK | cons a r => rfl
  have hk' : ¬ ([] = K) := fun h => hK h.symm
  unfold edgeType
  by_cases e : c1.keys = c2.keys
  · simp [e]
  · rw [if_neg e]
    by_cases e1 : c1.keys = K
    · have e2 : ¬ c2.keys = K := fun h => e (e1.trans h.symm)
      cases low <;> by_cases e3 : c2.keys = [] <;> simp [e1, e2, hk, e3, hk']
    · by_cases e2 : c2.keys = K
      · cases low <;> by_cases e3 : c1.keys = [] <;> simp [e1, e2, hk, e3, hk']
      · by_cases e3 : c1.keys = [] <;> by_cases e4 : c2.keys = [] <;> simp [e1, e2, e3, e4] <;> simp_all

theorem entry_data (out : List (List Int × V45)) (K : List Int) : (entry out K).data = asVC (out.flatMap (fun a => if a.1 = K then [a.2] else [])) := by
  unfold entry asVC
  dsimp only
  induction out with
  | nil => rfl
  | cons a out ih =>
    by_cases c : a.1 = K
    · rw [List.filter_cons_of_pos (by simpa using c), List.map_cons, ih, List.flatMap_cons, if_pos c]; rfl
    · rw [List.filter_cons_of_neg (by simpa using c), ih, List.flatMap_cons, if_neg c]; rfl

theorem keys_iff (c : Cnt) : c.keys.Pairwise (· < ·) ∧ ∀ k, k ∈ c.keys ↔ c.get k ≠ 0 := by
  refine ⟨List.pairwise_map.2 c.ok.srt, fun k => ?_⟩
  unfold Cnt.keys Cnt.get
  constructor
  · intro h
    obtain ⟨a, ha, rfl⟩ := List.mem_map.1 h
    rw [Arb.get_mem c.ok.srt ha]
    exact c.ok.nz a ha
  · intro h
    by_contra hk
    exact h (Arb.get_not_mem (fun a ha e => hk (List.mem_map.2 ⟨a, ha, e⟩)))

theorem sum_ind_pos {α : Type} (p : α → Prop) [DecidablePred p] : ∀ L : List α, (L.map (fun a => if p a then (1 : Int) else 0)).sum ≠ 0 ↔ ∃ a ∈ L, p a := by
  have hn : ∀ L : List α, 0 ≤ (L.map (fun a => if p a then (1 : Int) else 0)).sum := by
    intro L
    induction L with
    | nil => simp
    | cons a L ih => simp only [List.map_cons, List.sum_cons]; split_ifs <;> omega
  intro L
  induction L with
  | nil => simp
  | cons a L ih =>
    have := hn L
    simp only [List.map_cons, List.sum_cons, List.mem_cons, exists_eq_or_imp]
    by_cases c : p a
    · simp only [c, if_true, true_or, iff_true]; omega
    · simp only [c, if_false, zero_add, false_or]; exact ih

theorem keys_layers {bmin : Int} {L : List (S45 × Int)} {t : TSD} (d : Data bmin L t) (q : ℚ × ℚ) (K : List Int) :
    (depth t q).keys = K ↔ LayersAt L (half q) K := by
  obtain ⟨h1, h2⟩ := keys_iff (depth t q)
  have h3 : ∀ k, k ∈ (depth t q).keys ↔ ∃ s, (s, k) ∈ L ∧ Covers s (half q) := by
    intro k
    rw [h2, d.depth, sum_ind_pos (fun a : S45 × Int => a.2 = k ∧ 0 < Spec.Deg45.depth a.1.data (half q))]
    constructor
    · rintro ⟨a, ha, rfl, hp⟩; exact ⟨a.1, ha, hp⟩
    · rintro ⟨s, ha, hp⟩; exact ⟨(s, k), ha, rfl, hp⟩
  constructor
  · rintro rfl; exact ⟨h1, h3⟩
  · rintro ⟨g1, g2⟩
    exact Arb.sorted_ext h1 g1 (fun k => by rw [h3, g2])

end Verif.Merge45
