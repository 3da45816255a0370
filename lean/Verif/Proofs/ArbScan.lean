import Verif.Proofs.ArbLoop
/-! The whole scan. -/
namespace Verif.Arb
open Verif.Contains (lessPoint lessPoint_iff)
open Verif.Spec Verif.Spec.Arb

variable {β : Type}

/-! ### Removing finished edges -/

theorem drop_tw {α : Type} (q : α → Bool) : ∀ l : List α, l.drop (l.takeWhile q).length = l.dropWhile q
  | [] => rfl
  | a :: l => by
    rw [List.takeWhile_cons, List.dropWhile_cons]
    split_ifs
    · simp only [List.length_cons, List.drop_succ_cons]; exact drop_tw q l
    · simp

theorem tw_all {α : Type} (q : α → Bool) (l : List α) (a : α) (h : a ∈ l.takeWhile q) : q a = true := by
  have := List.all_takeWhile (l := l) (p := q)
  exact List.all_eq_true.1 this a h

theorem tw_filter (p : Pt) : ∀ B : SD, B.Pairwise (fun a b => Y a.1 p.1 ≤ Y b.1 p.1) → (∀ a ∈ B, (p.2 : ℚ) ≤ Y a.1 p.1) →
    (∀ a ∈ B, a.1.2 = p ↔ Y a.1 p.1 = p.2) → B.takeWhile (fun a => a.1.2 == p) = B.filter (fun a => a.1.2 == p)
  | [], _, _, _ => rfl
  | a :: B, h1, h2, h3 => by
    have ih := tw_filter p B (List.pairwise_cons.1 h1).2 (fun b hb => h2 b (List.mem_cons_of_mem _ hb))
      (fun b hb => h3 b (List.mem_cons_of_mem _ hb))
    rw [List.takeWhile_cons, List.filter_cons]
    by_cases h : a.1.2 = p
    · simp only [h, beq_self_eq_true, if_true]; rw [ih]
    · have hf : (a.1.2 == p) = false := by simpa using h
      rw [hf]
      simp only [Bool.false_eq_true, if_false]
      symm
      rw [List.filter_eq_nil_iff]
      intro b hb
      have hya : (p.2 : ℚ) < Y a.1 p.1 := by
        refine lt_of_le_of_ne (h2 a List.mem_cons_self) ?_
        intro hc; exact h ((h3 a List.mem_cons_self).2 hc.symm)
      have hyb := (List.pairwise_cons.1 h1).1 b hb
      intro hc
      have := (h3 b (List.mem_cons_of_mem _ hb)).1 (by simpa using hc)
      linarith

theorem retire_find {E : List Ev} (hG : Good E) {sd : SD} {p : Pt} (hsrt : sd.Pairwise (fun a b => Lt a.1 b.1))
    (hm : ∀ a ∈ sd, Has E a.1 ∧ LSpan p.1 a.1) (hv : Vertex E p) (umax : Int) :
    (sd.drop (lowerBound (fun e => lessHE p.1 true e (vhe umax p)) sd)).takeWhile (fun a => a.1.2 == p) =
    sd.filter (fun a => a.1.2 == p) := by
  have hq : ∀ b ∈ sd, (lessHE p.1 true b.1 (vhe umax p) = true ↔ Y b.1 p.1 < p.2) := by
    intro b hb
    have := (hm b hb).2
    exact lessHE_query p this.nv this.1 this.2
  have hmono : sd.Pairwise (fun a b => Y a.1 p.1 ≤ Y b.1 p.1) := by
    refine List.Pairwise.imp_of_mem ?_ hsrt
    intro a b ha hb hl
    obtain ⟨ea, sa⟩ := hm a ha
    obtain ⟨eb, sb⟩ := hm b hb
    exact lt_le (hG.sep ea eb (lt_ne hl) sa.nv sb.nv) hl (by exact_mod_cast sa.1.le) (by exact_mod_cast sa.2) (by exact_mod_cast sb.1.le)
      (by exact_mod_cast sb.2)
  have hend : ∀ a ∈ sd, (a.1.2 = p ↔ Y a.1 p.1 = p.2) := by
    intro a ha
    obtain ⟨ea, sa⟩ := hm a ha
    constructor
    · intro h; have := Y_right sa.nv; rw [h] at this; exact this
    · intro h
      rcases eq_or_lt_of_le sa.2 with g | g
      · have := Y_right sa.nv
        rw [← g, h] at this
        exact Prod.ext g.symm (by exact_mod_cast this.symm)
      · exact (vertex_nv hG hv ea sa.1 g h).elim
  unfold lowerBound
  rw [drop_tw (fun a : HE × PMap => lessHE p.1 true a.1 (vhe umax p))]
  generalize hqq : (fun a : HE × PMap => lessHE p.1 true a.1 (vhe umax p)) = Q
  have hQ : ∀ b ∈ sd, (Q b = true ↔ Y b.1 p.1 < p.2) := by rw [← hqq]; exact hq
  have hsplit : sd = sd.takeWhile Q ++ sd.dropWhile Q := List.takeWhile_append_dropWhile.symm
  have hdm : ∀ a ∈ sd.dropWhile Q, a ∈ sd := fun a ha => (List.dropWhile_sublist Q).subset ha
  have hge : ∀ a ∈ sd.dropWhile Q, (p.2 : ℚ) ≤ Y a.1 p.1 := by
    rcases hd : sd.dropWhile Q with _ | ⟨b, B⟩
    · simp
    · have hb : b ∈ sd := hdm b (by rw [hd]; simp)
      have hnb : ¬ Q b = true := by
        have := List.head?_dropWhile_not Q sd
        rw [hd] at this
        simp at this
        rw [this]; simp
      rw [hQ b hb] at hnb
      intro a ha
      rcases List.mem_cons.1 ha with rfl | ha
      · exact not_lt.1 hnb
      · have hp : (b :: B).Pairwise (fun a b => Y a.1 p.1 ≤ Y b.1 p.1) := by
          rw [← hd]; exact hmono.sublist (List.dropWhile_sublist Q)
        exact le_trans (not_lt.1 hnb) ((List.pairwise_cons.1 hp).1 a ha)
  rw [tw_filter p _ (hmono.sublist (List.dropWhile_sublist Q)) hge (fun a ha => hend a (hdm a ha))]
  conv_rhs => rw [hsplit, List.filter_append]
  have : (sd.takeWhile Q).filter (fun a => a.1.2 == p) = [] := by
    rw [List.filter_eq_nil_iff]
    intro a ha hc
    have h1 := tw_all Q sd a ha
    have hs : a ∈ sd := (List.takeWhile_sublist Q).subset ha
    have h2 := (hQ a hs).1 h1
    have h3 := (hend a hs).1 (by simpa using hc)
    linarith
  rw [this, List.nil_append]

theorem retire_spec {E : List Ev} (hG : Good E) (umax cx x0 : Int) : ∀ (q : List Pt) (sd : SD) (rm : List HE) (px : Int),
    q.Pairwise plt → (∀ p ∈ q, x0 < p.1 ∧ Vertex E p) → sd.Pairwise (fun a b => Lt a.1 b.1) →
    (∀ a ∈ sd, Has E a.1 ∧ a.1.1.1 ≤ x0) → (∀ a ∈ sd, a.1 ∈ rm ∨ a.1.2 ∈ q) →
    (∀ e ∈ rm, e.2.1 = px ∧ px ≤ cx ∧ ∀ p ∈ q, px ≤ p.1) →
    retire umax cx q sd rm px = (sd.filter (fun a => decide (cx < a.1.2.1)), q.filter (fun p => decide (cx < p.1)))
  | [], sd, rm, px, _, _, _, _, hq, hrm => by
    rw [retire, List.filter_nil]
    congr 1
    unfold eraseAll
    apply List.filter_congr
    intro a ha
    rcases hq a ha with h | h
    · obtain ⟨g1, g2, _⟩ := hrm _ h
      have hn : ¬ cx < a.1.2.1 := by omega
      have hc : rm.contains a.1 = true := by rw [List.contains_iff_mem]; exact h
      rw [hc]; simp [hn]
    · simp at h
  | p :: q, sd, rm, px, hqs, hqv, hsrt, hm, hq, hrm => by
    rw [retire]
    by_cases hp : p.1 ≤ cx
    · rw [if_pos hp]
      have hpq : ∀ p' ∈ q, p.1 ≤ p'.1 := by
        intro p' hp'
        have := (List.pairwise_cons.1 hqs).1 p' hp'
        rcases this with h | h <;> omega
      obtain ⟨hx0, hv⟩ := hqv p List.mem_cons_self
      -- the state after the possible erasure
      generalize hst : (if p.1 ≠ px then (eraseAll sd rm, []) else (sd, rm)) = st
      have hsub : st.1.Sublist sd := by
        rw [← hst]; split_ifs
        · exact List.filter_sublist
        · exact List.Sublist.refl _
      have hq' : ∀ a ∈ st.1, a.1 ∈ st.2 ∨ a.1.2 ∈ p :: q := by
        rw [← hst]; split_ifs with hc
        · intro a ha
          right
          unfold eraseAll at ha
          obtain ⟨h1, h2⟩ := List.mem_filter.1 ha
          rcases hq a h1 with h | h
          · rw [← List.contains_iff_mem] at h; rw [h] at h2; simp at h2
          · exact h
        · exact hq
      have hrm' : ∀ e ∈ st.2, e.2.1 = p.1 := by
        rw [← hst]; split_ifs with hc
        · simp
        · intro e he
          have := (hrm e he).1
          omega
      have hfil : st.1.filter (fun a => decide (cx < a.1.2.1)) = sd.filter (fun a => decide (cx < a.1.2.1)) := by
        rw [← hst]; split_ifs with hc
        · unfold eraseAll
          rw [List.filter_filter]
          apply List.filter_congr
          intro a ha
          by_cases h : a.1 ∈ rm
          · obtain ⟨g1, g2, _⟩ := hrm _ h
            have hn : ¬ cx < a.1.2.1 := by omega
            simp [hn]
          · have : rm.contains a.1 = false := by rw [Bool.eq_false_iff, Ne, List.contains_iff_mem]; exact h
            rw [this]; simp
        · rfl
      have hm' : ∀ a ∈ st.1, Has E a.1 ∧ LSpan p.1 a.1 := by
        intro a ha
        obtain ⟨g1, g2⟩ := hm a (hsub.subset ha)
        refine ⟨g1, by omega, ?_⟩
        rcases hq' a ha with h | h
        · exact (hrm' _ h).ge
        · rcases List.mem_cons.1 h with h | h
          · rw [h]
          · exact hpq _ h
      have hfind := retire_find hG (hsrt.sublist hsub) hm' hv umax
      dsimp only
      rw [hfind]
      rw [retire_spec hG umax cx x0 q st.1 _ p.1 (List.pairwise_cons.1 hqs).2 (fun p' hp' => hqv p' (List.mem_cons_of_mem _ hp'))
        (hsrt.sublist hsub) (fun a ha => hm a (hsub.subset ha)) ?_ ?_, hfil]
      · congr 1
        rw [List.filter_cons_of_neg (by simpa using hp)]
      · intro a ha
        rcases hq' a ha with h | h
        · exact Or.inl (List.mem_append_left _ h)
        · rcases List.mem_cons.1 h with h | h
          · left
            apply List.mem_append_right
            refine List.mem_map.2 ⟨a, List.mem_filter.2 ⟨ha, by simpa using h⟩, rfl⟩
          · exact Or.inr h
      · intro e he
        rcases List.mem_append.1 he with h | h
        · exact ⟨hrm' e h, hp, hpq⟩
        · obtain ⟨a, ha, hae⟩ := List.mem_map.1 h
          have := (List.mem_filter.1 ha).2
          have : a.1.2 = p := by simpa using this
          rw [← hae, this]
          exact ⟨rfl, hp, hpq⟩
    · rw [if_neg hp]
      have hall : ∀ p' ∈ p :: q, cx < p'.1 := by
        intro p' hp'
        rcases List.mem_cons.1 hp' with rfl | hp'
        · omega
        · have := (List.pairwise_cons.1 hqs).1 p' hp'
          rcases this with h | h <;> omega
      congr 1
      · unfold eraseAll
        apply List.filter_congr
        intro a ha
        by_cases h : a.1 ∈ rm
        · obtain ⟨g1, g2, _⟩ := hrm _ h
          have hn : ¬ cx < a.1.2.1 := by omega
          have hc : rm.contains a.1 = true := by rw [List.contains_iff_mem]; exact h
          rw [hc]; simp [hn]
        · have hc : rm.contains a.1 = false := by rw [Bool.eq_false_iff, Ne, List.contains_iff_mem]; exact h
          have := hall _ ((hq a ha).resolve_left h)
          rw [hc]; simp [this]
      · symm
        rw [List.filter_eq_self]
        intro p' hp'
        simpa using hall p' hp'

/-! ### Inserting new edges -/

theorem lt_trans_at {E : List Ev} (hG : Good E) {x : Int} {e f g : HE} (he : Has E e) (hf : Has E f) (hg : Has E g) (se : RSpan x e) (sf : RSpan x f)
    (sg : RSpan x g) (h1 : Lt e f) (h2 : Lt f g) : Lt e g := by
  have key : ∀ a : HE, RSpan x a → (a.1.1 : ℚ) < (x : ℚ) + 1 / 2 ∧ (x : ℚ) + 1 / 2 < a.2.1 := by
    intro a ha
    have q1 : (a.1.1 : ℚ) ≤ x := by exact_mod_cast ha.1
    have q2 : (x : ℚ) + 1 ≤ a.2.1 := by exact_mod_cast ha.2
    constructor <;> linarith
  obtain ⟨e1, e2⟩ := key e se
  obtain ⟨f1, f2⟩ := key f sf
  obtain ⟨g1, g2⟩ := key g sg
  have l1 := lt_lt (hG.sep he hf (lt_ne h1) se.nv sf.nv) h1 e1 e2 f1 f2
  have l2 := lt_lt (hG.sep hf hg (lt_ne h2) sf.nv sg.nv) h2 f1 f2 g1 g2
  exact ⟨_, e1, e2, g1, g2, lt_trans l1 l2⟩

theorem less_ins {E : List Ev} (hG : Good E) {x : Int} {a b : HE} (ha : Has E a) (hb : Has E b) (hne : a ≠ b) (sa : RSpan x a) (sb : RSpan x b)
    (hx : a.1.1 = x) : (lessHE x false b a = true ↔ Lt b a) ∧ (lessHE x false a b = true ↔ Lt a b) := by
  have hs := hG.sep ha hb hne sa.nv sb.nv
  rcases eq_or_lt_of_le sb.1 with g | g
  · exact ⟨lessHE_start hs.symm (Ne.symm hne) sb.nv sa.nv g hx, lessHE_start hs hne sa.nv sb.nv hx g⟩
  · have hn := planar_ne hG.planar ha hb hne sa.nv sb.nv (t := (x : ℚ)) (by exact_mod_cast sa.1) (by exact_mod_cast sa.2.le)
      (by exact_mod_cast g) (by exact_mod_cast sb.2)
    have := lessHE_new (jb := false) hs sa.nv sb.nv hx g sb.2 hn
    exact ⟨this.2, this.1⟩

theorem mapInsert_spec {E : List Ev} (hG : Good E) {x : Int} {sd : SD} {a : HE × PMap} (hsrt : sd.Pairwise (fun a b => Lt a.1 b.1))
    (hm : ∀ b ∈ sd, Has E b.1 ∧ RSpan x b.1) (ha : Has E a.1) (sa : RSpan x a.1) (hx : a.1.1.1 = x) (hnot : ∀ b ∈ sd, b.1 ≠ a.1) :
    (mapInsert x sd a).Pairwise (fun a b => Lt a.1 b.1) ∧ ∀ b, b ∈ mapInsert x sd a ↔ b = a ∨ b ∈ sd := by
  have l1 := lb_lt (fun e => lessHE x false e a.1) sd
  have l2 := lb_at (fun e => lessHE x false e a.1) sd
  have hless : ∀ b ∈ sd, (lessHE x false b.1 a.1 = true ↔ Lt b.1 a.1) ∧ (lessHE x false a.1 b.1 = true ↔ Lt a.1 b.1) := fun b hb =>
    less_ins hG ha (hm b hb).1 (Ne.symm (hnot b hb)) sa (hm b hb).2 hx
  have hor : ∀ b ∈ sd, ¬ Lt b.1 a.1 → Lt a.1 b.1 := by
    intro b hb hn
    have sb := (hm b hb).2
    exact (lt_or (hG.sep ha (hm b hb).1 (Ne.symm (hnot b hb)) sa.nv sb.nv) sa.nv sb.nv (lt_of_le_of_lt sa.1 sb.2)
      (lt_of_le_of_lt sb.1 sa.2)).resolve_right hn
  have heq : ∃ i, mapInsert x sd a = sd.take i ++ a :: sd.drop i ∧
      (∀ j b, j < i → sd[j]? = some b → lessHE x false b.1 a.1 = true) ∧ ∀ b, sd[i]? = some b → lessHE x false b.1 a.1 = false := by
    refine ⟨lowerBound (fun e => lessHE x false e a.1) sd, ?_, l1, l2⟩
    unfold mapInsert
    dsimp only
    generalize lowerBound (fun e => lessHE x false e a.1) sd = i at l1 l2 ⊢
    rcases h : sd[i]? with _ | b
    · have := List.getElem?_eq_none_iff.1 h
      dsimp only
      rw [List.take_of_length_le this, List.drop_of_length_le this]
    · dsimp only
      have hb := List.mem_of_getElem? h
      have : ¬ Lt b.1 a.1 := by
        rw [← (hless b hb).1]; rw [l2 b h]; simp
      rw [if_pos ((hless b hb).2.2 (hor b hb this))]
  clear l1 l2
  obtain ⟨i, heq, l1, l2⟩ := heq
  rw [heq]
  have hlow : ∀ b ∈ sd.take i, Lt b.1 a.1 := by
    intro b hb
    obtain ⟨j, hj⟩ := List.mem_iff_getElem?.1 hb
    rw [List.getElem?_take] at hj
    split_ifs at hj with hji
    exact (hless b (List.mem_of_getElem? hj)).1.1 (l1 j b hji hj)
  have hhigh : ∀ b ∈ sd.drop i, Lt a.1 b.1 := by
    rcases hd : sd.drop i with _ | ⟨c, B⟩
    · simp
    · have hc : sd[i]? = some c := by
        have : (sd.drop i)[0]? = some c := by rw [hd]; rfl
        rw [List.getElem?_drop] at this; simpa using this
      have hcm := List.mem_of_getElem? hc
      have hac : Lt a.1 c.1 := by
        apply hor c hcm
        rw [← (hless c hcm).1, l2 c hc]; simp
      intro b hb
      rcases List.mem_cons.1 hb with rfl | hb'
      · exact hac
      · have hp : (c :: B).Pairwise (fun a b => Lt a.1 b.1) := by rw [← hd]; exact hsrt.sublist (List.drop_sublist _ _)
        have hbm : b ∈ sd := (List.drop_sublist i sd).subset (by rw [hd]; exact hb)
        exact lt_trans_at hG ha (hm c hcm).1 (hm b hbm).1 sa (hm c hcm).2 (hm b hbm).2 hac ((List.pairwise_cons.1 hp).1 b hb')
  constructor
  · have hsp : (sd.take i ++ sd.drop i).Pairwise (fun a b => Lt a.1 b.1) := by rw [List.take_append_drop]; exact hsrt
    rw [List.pairwise_append] at hsp ⊢
    refine ⟨hsp.1, List.pairwise_cons.2 ⟨hhigh, hsp.2.1⟩, ?_⟩
    intro b hb c hc
    rcases List.mem_cons.1 hc with rfl | hc
    · exact hlow b hb
    · exact hsp.2.2 b hb c hc
  · intro b
    rw [List.mem_append, List.mem_cons]
    have : b ∈ sd ↔ b ∈ sd.take i ∨ b ∈ sd.drop i := by
      rw [← List.mem_append, List.take_append_drop]
    rw [this]; tauto

theorem foldInsert {E : List Ev} (hG : Good E) {x : Int} : ∀ (ins : List (HE × PMap)) (sd : SD), sd.Pairwise (fun a b => Lt a.1 b.1) →
    (∀ b ∈ sd, Has E b.1 ∧ RSpan x b.1) → (∀ a ∈ ins, Has E a.1 ∧ RSpan x a.1 ∧ a.1.1.1 = x) → (ins.map Prod.fst).Nodup →
    (∀ b ∈ sd, b.1 ∉ ins.map Prod.fst) →
    (ins.foldl (mapInsert x) sd).Pairwise (fun a b => Lt a.1 b.1) ∧ ∀ b, b ∈ ins.foldl (mapInsert x) sd ↔ b ∈ ins ∨ b ∈ sd
  | [], sd, h, _, _, _, _ => by simp [h]
  | a :: ins, sd, h, hm, hi, hnd, hnot => by
    obtain ⟨ha, sa, hx⟩ := hi a List.mem_cons_self
    have hnd' := List.nodup_cons.1 (by simpa only [List.map_cons] using hnd)
    obtain ⟨s1, s2⟩ := mapInsert_spec hG h hm ha sa hx (fun b hb hc => hnot b hb (by rw [hc]; simp))
    have ih := foldInsert hG ins (mapInsert x sd a) s1 (by
      intro b hb
      rcases (s2 b).1 hb with rfl | hb
      · exact ⟨ha, sa⟩
      · exact hm b hb) (fun b hb => hi b (List.mem_cons_of_mem _ hb)) hnd'.2 (by
      intro b hb
      rcases (s2 b).1 hb with rfl | hb
      · exact hnd'.1
      · intro hc; exact hnot b hb (by rw [List.map_cons]; exact List.mem_cons_of_mem _ hc))
    rw [List.foldl_cons]
    refine ⟨ih.1, fun b => ?_⟩
    rw [ih.2 b, s2 b, List.mem_cons]
    tauto

theorem queueInsert_mem (q : List Pt) (p r : Pt) : r ∈ queueInsert q p ↔ r = p ∨ r ∈ q := by
  induction q with
  | nil => simp [queueInsert]
  | cons a q ih =>
    rw [queueInsert]
    split_ifs with h1 h2
    · rw [List.mem_cons, ih, List.mem_cons]; tauto
    · simp
    · rw [lessPoint_iff] at h1 h2
      have : a = p := Prod.ext (by omega) (by omega)
      rw [this]; simp

theorem queueInsert_srt (q : List Pt) (p : Pt) (h : q.Pairwise plt) : (queueInsert q p).Pairwise plt := by
  induction q with
  | nil => exact List.pairwise_singleton _ _
  | cons a q ih =>
    have hc := List.pairwise_cons.1 h
    rw [queueInsert]
    split_ifs with h1 h2
    · refine List.pairwise_cons.2 ⟨?_, ih hc.2⟩
      intro r hr
      rcases (queueInsert_mem q p r).1 hr with rfl | hr
      · exact (lessPoint_iff _ _).1 h1
      · exact hc.1 r hr
    · refine List.pairwise_cons.2 ⟨?_, h⟩
      rw [lessPoint_iff] at h2
      intro r hr
      rcases List.mem_cons.1 hr with rfl | hr
      · exact h2
      · have := hc.1 r hr
        rcases this with g | g <;> rcases h2 with k | k <;> [left; left; left; right] <;> omega
    · exact h

theorem queueFold (ps : List Pt) : ∀ q : List Pt, q.Pairwise plt →
    (ps.foldl queueInsert q).Pairwise plt ∧ ∀ r, r ∈ ps.foldl queueInsert q ↔ r ∈ ps ∨ r ∈ q := by
  induction ps with
  | nil => intro q h; simp [h]
  | cons p ps ih =>
    intro q h
    obtain ⟨h1, h2⟩ := ih _ (queueInsert_srt q p h)
    rw [List.foldl_cons]
    refine ⟨h1, fun r => ?_⟩
    rw [h2, queueInsert_mem, List.mem_cons]; tauto

/-! ### From column to column -/

/-- The scanline just right of `x`. -/
structure RInv (E : List Ev) (x : Int) (sd : SD) (q : List Pt) : Prop where
  mem : ∀ a ∈ sd, Has E a.1 ∧ RSpan x a.1 ∧ Ok a.2 ∧ ∀ k, get a.2 k = D E a.1 a.1.1.1 k
  all : ∀ e, Has E e → RSpan x e → ∃ a ∈ sd, a.1 = e
  srt : sd.Pairwise (fun a b => Lt a.1 b.1)
  qs : q.Pairwise plt
  qv : ∀ p ∈ q, x < p.1 ∧ Vertex E p
  qa : ∀ a ∈ sd, a.1.2 ∈ q

/-- What the scan has written up to the column `x`. -/
structure Done (E : List Ev) (op : RF β) (low : Int → Prop) (P : List HE) (out : List β) : Prop where
  outEq : out = P.flatMap (NN op E)
  nd : P.Nodup
  mem : ∀ e ∈ P, Has E e ∧ low e.1.1
  all : ∀ e, Has E e → low e.1.1 → e ∈ P ∨ NN op E e = []
  srt : P.Pairwise (fun a b => a.1.1 ≤ b.1.1)

theorem scanGo_spec {E : List Ev} (hG : Good E) (hS : Sorted E) (op : RF β) (umin umax : Int) :
    ∀ (n : Nat) (evs pre : List Ev) (x0 : Int) (sd : SD) (q : List Pt) (P : List HE) (out : List β),
    evs.length ≤ n → E = pre ++ evs → (∀ ev ∈ pre, ev.1.1.1 ≤ x0) → (∀ ev ∈ evs, x0 < ev.1.1.1) → RInv E x0 sd q →
    Done E op (· ≤ x0) P out → ∃ P' out', scanGo op umin umax n evs sd q out = some out' ∧ Done E op (fun _ => True) P' out'
  | n, [], pre, x0, sd, q, P, out, _, hsp, hpre, _, _, hd => by
    have : scanGo op umin umax n [] sd q out = some out := by cases n <;> rw [scanGo]
    refine ⟨P, out, this, hd.outEq, hd.nd, fun e he => ⟨(hd.mem e he).1, trivial⟩, fun e he _ => ?_, hd.srt⟩
    apply hd.all e he
    rw [hsp, List.append_nil] at he
    obtain ⟨ev, hev, rfl⟩ := List.mem_map.1 he
    exact hpre ev hev
  | 0, ev :: r, _, _, _, _, _, _, hn, _, _, _, _, _ => by simp at hn
  | n + 1, ev :: r, pre, x0, sd, q, P, out, hn, hsp, hpre, hpost, hR, hd => by
    rw [scanGo]
    dsimp only
    have hx0 : x0 < ev.1.1.1 := hpost ev List.mem_cons_self
    have hge : ∀ e ∈ ev :: r, ev.1.1.1 ≤ e.1.1.1 := by
      intro e he
      rcases List.mem_cons.1 he with rfl | he
      · exact le_rfl
      · have hb : Before ev.1 e.1 := by
          have := hS
          unfold Sorted at this
          rw [hsp] at this
          exact (List.pairwise_cons.1 (List.pairwise_append.1 this).2.1).1 e he
        rcases hb with hb | ⟨hb, _⟩
        · rcases hb with hb | hb <;> omega
        · rw [hb]
    have hgap : ∀ e, Has E e → e.1.1 < ev.1.1.1 → e.1.1 ≤ x0 := by
      intro e he hlt
      rcases has_split hsp he with g | g
      · obtain ⟨a, ha, rfl⟩ := List.mem_map.1 g; exact hpre a ha
      · obtain ⟨a, ha, rfl⟩ := List.mem_map.1 g
        have := hge a ha; omega
    -- edges that end before the column
    have hr1 := retire_spec hG umax (ev.1.1.1 - 1) x0 q sd [] (ev.1.1.1 - 1) hR.qs hR.qv hR.srt
      (fun a ha => ⟨(hR.mem a ha).1, (hR.mem a ha).2.1.1⟩) (fun a ha => Or.inr (hR.qa a ha)) (by simp)
    rw [hr1]
    dsimp only
    generalize hsd1 : sd.filter (fun a => decide (ev.1.1.1 - 1 < a.1.2.1)) = sd1
    generalize hq1 : q.filter (fun p => decide (ev.1.1.1 - 1 < p.1)) = q1
    have msd1 : ∀ a, a ∈ sd1 ↔ a ∈ sd ∧ ev.1.1.1 ≤ a.1.2.1 := by
      intro a; rw [← hsd1, List.mem_filter]
      simp only [decide_eq_true_eq]
      exact and_congr_right fun _ => by omega
    have mq1 : ∀ p, p ∈ q1 ↔ p ∈ q ∧ ev.1.1.1 ≤ p.1 := by
      intro a; rw [← hq1, List.mem_filter]
      simp only [decide_eq_true_eq]
      exact and_congr_right fun _ => by omega
    have srt1 : sd1.Pairwise (fun a b => Lt a.1 b.1) := by rw [← hsd1]; exact hR.srt.sublist List.filter_sublist
    have hL : LInv E ev.1.1.1 sd1 := by
      refine ⟨?_, ?_, srt1⟩
      · intro a ha
        obtain ⟨h1, h2⟩ := (msd1 a).1 ha
        obtain ⟨g1, g2, g3, g4⟩ := hR.mem a h1
        refine ⟨g1, ⟨lt_of_le_of_lt g2.1 hx0, h2⟩, g3, fun k => ?_⟩
        have := g2.1
        rw [g4 k]; exact (D_const hG g1 (by omega) (by omega) k).symm
      · intro e he hs
        have := hgap e he hs.1
        obtain ⟨a, ha, hae⟩ := hR.all e he ⟨this, lt_of_lt_of_le hx0 hs.2⟩
        exact ⟨a, (msd1 a).2 ⟨ha, by rw [hae]; exact hs.2⟩, hae⟩
    obtain ⟨s', pre', Pc, hs', hF⟩ := handle_init (op := op) (umin := umin) (umax := umax) hG hS hsp hL
      (fun e he => lt_of_le_of_lt (hpre e he) hx0)
    rw [hs']
    -- edges that end in the column
    have hr2 := retire_spec hG umax ev.1.1.1 x0 q1 sd1 [] ev.1.1.1
      (by rw [← hq1]; exact hR.qs.sublist List.filter_sublist)
      (fun p hp => hR.qv p ((mq1 p).1 hp).1) srt1
      (fun a ha => ⟨(hR.mem a ((msd1 a).1 ha).1).1, (hR.mem a ((msd1 a).1 ha).1).2.1.1⟩)
      (fun a ha => Or.inr ((mq1 _).2 ⟨hR.qa a ((msd1 a).1 ha).1, ((msd1 a).1 ha).2⟩)) (by simp)
    simp only [Option.bind_eq_bind, Option.bind_some]
    rw [hr2]
    dsimp only
    generalize hsd2 : sd1.filter (fun a => decide (ev.1.1.1 < a.1.2.1)) = sd2
    generalize hq2 : q1.filter (fun p => decide (ev.1.1.1 < p.1)) = q2
    have msd2 : ∀ a, a ∈ sd2 ↔ a ∈ sd ∧ ev.1.1.1 < a.1.2.1 := by
      intro a; rw [← hsd2, List.mem_filter, msd1]
      simp only [decide_eq_true_eq]
      constructor
      · rintro ⟨⟨h1, _⟩, h2⟩; exact ⟨h1, h2⟩
      · rintro ⟨h1, h2⟩; exact ⟨⟨h1, by omega⟩, h2⟩
    have mq2 : ∀ p, p ∈ q2 ↔ p ∈ q ∧ ev.1.1.1 < p.1 := by
      intro a; rw [← hq2, List.mem_filter, mq1]
      simp only [decide_eq_true_eq]
      constructor
      · rintro ⟨⟨h1, _⟩, h2⟩; exact ⟨h1, h2⟩
      · rintro ⟨h1, h2⟩; exact ⟨⟨h1, by omega⟩, h2⟩
    have srt2 : sd2.Pairwise (fun a b => Lt a.1 b.1) := by rw [← hsd2]; exact srt1.sublist List.filter_sublist
    have qs2 : q2.Pairwise plt := by
      rw [← hq2, ← hq1]; exact (hR.qs.sublist List.filter_sublist).sublist List.filter_sublist
    have hw := hF.wrote
    unfold insertNew
    obtain ⟨i1, i2⟩ := foldInsert hG (x := ev.1.1.1) s'.ins sd2 srt2
      (fun b hb => ⟨(hR.mem b ((msd2 b).1 hb).1).1, ⟨le_trans (hR.mem b ((msd2 b).1 hb).1).2.1.1 hx0.le, ((msd2 b).1 hb).2⟩⟩)
      (fun a ha => by
        obtain ⟨g1, g2, g3, _, _, _⟩ := hw.insm a ha
        exact ⟨g1, ⟨g2.le, by rw [← g2]; exact g3⟩, g2⟩) hw.insnd
      (by
        intro b hb hc
        obtain ⟨a, ha, hab⟩ := List.mem_map.1 hc
        have h1 := (hw.insm a ha).2.1
        have h2 := (hR.mem b ((msd2 b).1 hb).1).2.1.1
        rw [hab] at h1
        omega)
    obtain ⟨k1, k2⟩ := queueFold (s'.ins.map (fun a => a.1.2)) q2 qs2
    refine scanGo_spec hG hS op umin umax n s'.evs pre' ev.1.1.1 _ _ (P ++ Pc) _ ?_ hF.split hF.done hF.todo ?_ ?_
    · -- the column has used up an event
      have e1 : (E.filter (fun e => decide (ev.1.1.1 < e.1.1.1))) = s'.evs := by
        conv_lhs => rw [hF.split, List.filter_append]
        have a : pre'.filter (fun e => decide (ev.1.1.1 < e.1.1.1)) = [] := by
          rw [List.filter_eq_nil_iff]; intro e he; have := hF.done e he; simpa using this
        have b : s'.evs.filter (fun e => decide (ev.1.1.1 < e.1.1.1)) = s'.evs := by
          rw [List.filter_eq_self]; intro e he; have := hF.todo e he; simpa using this
        rw [a, b, List.nil_append]
      have e2 : (E.filter (fun e => decide (ev.1.1.1 < e.1.1.1))).length ≤ r.length := by
        rw [hsp, List.filter_append, List.length_append]
        have a : pre.filter (fun e => decide (ev.1.1.1 < e.1.1.1)) = [] := by
          rw [List.filter_eq_nil_iff]; intro e he; have := hpre e he; simp only [decide_eq_true_eq]; omega
        rw [a, List.filter_cons_of_neg (by simp)]
        have := List.length_filter_le (fun e : Ev => decide (ev.1.1.1 < e.1.1.1)) r
        simpa using this
      rw [e1] at e2
      simp only [List.length_cons] at hn
      omega
    · refine ⟨?_, ?_, i1, k1, ?_, ?_⟩
      · intro a ha
        rcases (i2 a).1 ha with h | h
        · obtain ⟨g1, g2, g3, _, g5, g6⟩ := hw.insm a h
          exact ⟨g1, ⟨g2.le, by rw [← g2]; exact g3⟩, g5, fun k => by rw [g6 k, g2]⟩
        · obtain ⟨h1, h2⟩ := (msd2 a).1 h
          obtain ⟨g1, g2, g3, g4⟩ := hR.mem a h1
          exact ⟨g1, ⟨le_trans g2.1 hx0.le, h2⟩, g3, g4⟩
      · intro e he hs
        rcases eq_or_lt_of_le hs.1 with g | g
        · obtain ⟨a, ha, hae⟩ := hw.insall e he hs.nv g trivial
          exact ⟨a, (i2 a).2 (Or.inl ha), hae⟩
        · have := hgap e he g
          obtain ⟨a, ha, hae⟩ := hR.all e he ⟨this, lt_trans hx0 hs.2⟩
          exact ⟨a, (i2 a).2 (Or.inr ((msd2 a).2 ⟨ha, by rw [hae]; exact hs.2⟩)), hae⟩
      · intro p hp
        rcases (k2 p).1 hp with h | h
        · obtain ⟨a, ha, hap⟩ := List.mem_map.1 h
          obtain ⟨g1, g2, g3, _⟩ := hw.insm a ha
          unfold NV at g3
          exact ⟨by rw [← hap]; omega, ⟨a.1, g1, Or.inr hap⟩⟩
        · obtain ⟨h1, h2⟩ := (mq2 p).1 h
          exact ⟨h2, (hR.qv p h1).2⟩
      · intro a ha
        rw [k2]
        rcases (i2 a).1 ha with h | h
        · exact Or.inl (List.mem_map.2 ⟨a, h, rfl⟩)
        · obtain ⟨h1, h2⟩ := (msd2 a).1 h
          exact Or.inr ((mq2 _).2 ⟨hR.qa a h1, h2⟩)
    · refine ⟨by rw [hd.outEq, hw.outEq, List.flatMap_append], ?_, ?_, ?_, ?_⟩
      · rw [List.nodup_append]
        refine ⟨hd.nd, hw.nd, ?_⟩
        rintro e he f hf rfl
        have h1 := (hd.mem e he).2
        have h2 := (hw.mem e hf).2.1
        omega
      · intro e he
        rcases List.mem_append.1 he with h | h
        · exact ⟨(hd.mem e h).1, le_trans (hd.mem e h).2 hx0.le⟩
        · exact ⟨(hw.mem e h).1, (hw.mem e h).2.1.le⟩
      · intro e he hle
        rcases eq_or_lt_of_le hle with g | g
        · have hdir : NV e ∨ e.1.1 = e.2.1 := by
            rcases hG.dirE he with k | k
            · exact Or.inl k
            · exact Or.inr k.1
          rcases hw.all e he g (by rcases hdir with k | k <;> [exact Or.inl ⟨k, trivial⟩; exact Or.inr ⟨k, trivial⟩]) with k | k
          · exact Or.inl (List.mem_append_right _ k)
          · exact Or.inr k
        · rcases hd.all e he (hgap e he g) with k | k
          · exact Or.inl (List.mem_append_left _ k)
          · exact Or.inr k
      · refine List.pairwise_append.2 ⟨hd.srt, ?_, fun a ha b hb => ?_⟩
        · exact List.pairwise_of_forall_mem_list fun a ha b hb => by rw [(hw.mem a ha).2.1, (hw.mem b hb).2.1]
        · have := (hd.mem a ha).2; have := (hw.mem b hb).2.1; omega

theorem scan_spec {E : List Ev} (hG : Good E) (hS : Sorted E) (op : RF β) (umin umax : Int) :
    ∃ P out, scan op umin umax E = some out ∧ Done E op (fun _ => True) P out := by
  unfold scan
  rcases hE : E with _ | ⟨ev, r⟩
  · exact ⟨[], [], rfl, rfl, List.nodup_nil, by simp, fun e he _ => by simp [Has] at he, List.Pairwise.nil⟩
  · rw [← hE]
    have hge : ∀ e ∈ E, ev.1.1.1 ≤ e.1.1.1 := by
      intro e he
      rw [hE] at he
      rcases List.mem_cons.1 he with rfl | he
      · exact le_rfl
      · have hb : Before ev.1 e.1 := by
          have := hS
          unfold Sorted at this
          rw [hE] at this
          exact (List.pairwise_cons.1 this).1 e he
        rcases hb with hb | ⟨hb, _⟩
        · rcases hb with hb | hb <;> omega
        · rw [hb]
    refine scanGo_spec hG hS op umin umax E.length E [] (ev.1.1.1 - 1) [] [] [] [] le_rfl rfl (by simp)
      (fun e he => by have := hge e he; omega) ⟨by simp, ?_, List.Pairwise.nil, List.Pairwise.nil, by simp, by simp⟩
      ⟨rfl, List.nodup_nil, by simp, ?_, List.Pairwise.nil⟩
    · intro e he hs
      obtain ⟨a, ha, rfl⟩ := List.mem_map.1 he
      have := hge a ha
      have := hs.1
      omega
    · intro e he hs
      obtain ⟨a, ha, rfl⟩ := List.mem_map.1 he
      have := hge a ha
      omega

end Verif.Arb
