import Verif.Proofs.CutDivide
/-! The bins: every segment is in the bin of each ordinate it meets. -/
namespace Verif.Cut
open Verif Verif.Arb Verif.Contains Verif.PolySet Verif.Spec Verif.Spec.Arb

theorem scanBins_inv {fp : FP} {keys : List Int} {L : List Seg} {P : Pts → Prop}
    (h : ∀ k i ip, P ip → P (validate fp k (L.filter (fun s => inBin keys i s.1)) ip)) :
    ∀ (ks : List Int) (i : Nat) (ip : Pts), P ip → P (scanBins fp keys L i ks ip)
  | [], _, _, hp => hp
  | k :: r, i, ip, hp => scanBins_inv h r (i + 1) _ (h k i ip hp)

theorem scanBins_mono (fp : FP) (keys : List Int) (L : List Seg) (j : Nat) (p : Pt) : ∀ (ks : List Int) (i : Nat) (ip : Pts), p ∈ ip j →
    p ∈ scanBins fp keys L i ks ip j := by
  intro ks i ip h
  exact scanBins_inv (P := fun ip => p ∈ ip j) (fun k i ip h => validate_mono _ _ _ _ _ _ h) ks i ip h

theorem scanBins_bin (fp : FP) (keys : List Int) (L : List Seg) : ∀ (ks : List Int) (i : Nat) (ip : Pts) (m : Nat) (k : Int), ks[m]? = some k →
    ∃ ip0, (∀ j p, p ∈ ip j → p ∈ ip0 j) ∧
      ∀ j p, p ∈ validate fp k (L.filter (fun s => inBin keys (i + m) s.1)) ip0 j → p ∈ scanBins fp keys L i ks ip j
  | [], _, _, m, _, h => by simp at h
  | a :: r, i, ip, 0, k, h => by
    simp only [List.getElem?_cons_zero, Option.some.injEq] at h
    subst h
    exact ⟨ip, fun j p h => h, fun j p h => scanBins_mono fp keys L j p r (i + 1) _ h⟩
  | a :: r, i, ip, m + 1, k, h => by
    simp only [List.getElem?_cons_succ] at h
    obtain ⟨ip0, h1, h2⟩ := scanBins_bin fp keys L r (i + 1) (validate fp a (L.filter (fun s => inBin keys i s.1)) ip) m k h
    refine ⟨ip0, fun j p hp => h1 j p (validate_mono _ _ _ _ _ _ hp), fun j p hp => h2 j p ?_⟩
    rwa [show i + 1 + m = i + (m + 1) by ring]

theorem scanBins_two (fp : FP) (keys : List Int) (L : List Seg) : ∀ (ks : List Int) (i : Nat) (ip : Pts) (m n : Nat) (k l : Int), ks[m]? = some k →
    ks[n]? = some l → m < n → ∃ ip1 ip2,
      (∀ j p, p ∈ validate fp k (L.filter (fun s => inBin keys (i + m) s.1)) ip1 j → p ∈ ip2 j) ∧
      ∀ j p, p ∈ validate fp l (L.filter (fun s => inBin keys (i + n) s.1)) ip2 j → p ∈ scanBins fp keys L i ks ip j
  | [], _, _, m, _, _, _, h, _, _ => by simp at h
  | a :: r, i, ip, _, 0, k, l, h, h', hmn => by omega
  | a :: r, i, ip, 0, n + 1, k, l, h, h', _ => by
    simp only [List.getElem?_cons_zero, Option.some.injEq] at h
    subst h
    simp only [List.getElem?_cons_succ] at h'
    obtain ⟨ip0, h1, h2⟩ := scanBins_bin fp keys L r (i + 1) (validate fp a (L.filter (fun s => inBin keys i s.1)) ip) n l h'
    refine ⟨ip, ip0, h1, fun j p hp => h2 j p ?_⟩
    rwa [show i + 1 + n = i + (n + 1) by ring]
  | a :: r, i, ip, m + 1, n + 1, k, l, h, h', hmn => by
    simp only [List.getElem?_cons_succ] at h h'
    obtain ⟨ip1, ip2, h1, h2⟩ := scanBins_two fp keys L r (i + 1) (validate fp a (L.filter (fun s => inBin keys i s.1)) ip) m n k l h h' (by omega)
    refine ⟨ip1, ip2, fun j p hp => h1 j p ?_, fun j p hp => h2 j p ?_⟩
    · rwa [show i + 1 + m = i + (m + 1) by ring]
    · rwa [show i + 1 + n = i + (n + 1) by ring]

/-! ### The bin of an ordinate -/

theorem takeWhile_len_le {p q : Int → Bool} (h : ∀ x, p x = true → q x = true) : ∀ L : List Int, (L.takeWhile p).length ≤ (L.takeWhile q).length
  | [] => by simp
  | a :: r => by
    by_cases c : p a = true
    · rw [List.takeWhile_cons_of_pos c, List.takeWhile_cons_of_pos (h a c)]
      simpa using takeWhile_len_le h r
    · rw [List.takeWhile_cons_of_neg c]; simp

theorem takeWhile_get {p : Int → Bool} : ∀ (L : List Int) (i : Nat), i < (L.takeWhile p).length → ∃ k, L[i]? = some k ∧ p k = true
  | [], i, h => by simp at h
  | a :: r, i, h => by
    by_cases c : p a = true
    · rw [List.takeWhile_cons_of_pos c] at h
      cases i with
      | zero => exact ⟨a, rfl, c⟩
      | succ i =>
        obtain ⟨k, h1, h2⟩ := takeWhile_get r i (by simpa using h)
        exact ⟨k, by simpa using h1, h2⟩
    · rw [List.takeWhile_cons_of_neg c] at h; simp at h

/-- The bin of an ordinate. -/
def binOf (keys : List Int) (y : Int) : Nat := (keys.takeWhile (fun k => decide (k ≤ y))).length - 1

theorem binOf_mono (keys : List Int) {y z : Int} (h : y ≤ z) : binOf keys y ≤ binOf keys z := by
  unfold binOf
  have := takeWhile_len_le (p := fun k => decide (k ≤ y)) (q := fun k => decide (k ≤ z)) (fun x hx => by
    rw [decide_eq_true_iff] at hx ⊢; omega) keys
  omega

theorem inBin_binOf {k0 : Int} {cuts : List Int} {e : HE} {y : Int} (h0 : k0 ≤ min e.1.2 e.2.2) (h1 : min e.1.2 e.2.2 ≤ y) (h2 : y ≤ max e.1.2 e.2.2) :
    inBin (k0 :: cuts) (binOf (k0 :: cuts) y) e = true := by
  unfold inBin binOf
  have a1 := takeWhile_len_le (p := fun k => decide (k < min e.1.2 e.2.2)) (q := fun k => decide (k ≤ y)) (fun x hx => by
    rw [decide_eq_true_iff] at hx ⊢; omega) (k0 :: cuts)
  have a2 := takeWhile_len_le (p := fun k => decide (k ≤ y)) (q := fun k => decide (k ≤ max e.1.2 e.2.2)) (fun x hx => by
    rw [decide_eq_true_iff] at hx ⊢; omega) (k0 :: cuts)
  have a3 : 0 < ((k0 :: cuts).takeWhile (fun k => decide (k ≤ y))).length := by
    rw [List.takeWhile_cons_of_pos (by rw [decide_eq_true_iff]; omega)]; simp
  dsimp only
  rw [Bool.and_eq_true, decide_eq_true_iff, decide_eq_true_iff]
  constructor
  · split_ifs <;> omega
  · omega

/-- The lower limit of the bin. -/
theorem binOf_min {k0 umin : Int} {cuts : List Int} {y : Int} (h0 : k0 ≤ y) :
    ∃ k, (umin :: cuts)[binOf (k0 :: cuts) y]? = some k ∧ (k ≤ y ∨ k = umin) := by
  have a3 : 0 < ((k0 :: cuts).takeWhile (fun k => decide (k ≤ y))).length := by
    rw [List.takeWhile_cons_of_pos (by rw [decide_eq_true_iff]; omega)]; simp
  obtain ⟨k, h1, h2⟩ := takeWhile_get (p := fun k => decide (k ≤ y)) (k0 :: cuts) (binOf (k0 :: cuts) y) (by unfold binOf; omega)
  match hb : binOf (k0 :: cuts) y with
  | 0 => exact ⟨umin, rfl, Or.inr rfl⟩
  | n + 1 =>
    rw [hb] at h1
    simp only [List.getElem?_cons_succ] at h1 ⊢
    exact ⟨k, h1, Or.inl (by simpa using h2)⟩

/-! ### The lowest ordinate -/

theorem insertEnd_mem (a p : Int × Int) (L : List (Int × Int)) : p ∈ insertEnd a L ↔ p = a ∨ p ∈ L := by
  induction L with
  | nil => simp [insertEnd]
  | cons b r ih =>
    rw [insertEnd]
    split_ifs
    · rw [List.mem_cons, ih, List.mem_cons]; tauto
    · rw [List.mem_cons]

theorem insertEnd_srt (a : Int × Int) (L : List (Int × Int)) (h : L.Pairwise (fun a b => a.1 ≤ b.1)) : (insertEnd a L).Pairwise (fun a b => a.1 ≤ b.1) := by
  induction L with
  | nil => simp [insertEnd]
  | cons b r ih =>
    rw [insertEnd]
    rw [List.pairwise_cons] at h
    split_ifs with c
    · rw [List.pairwise_cons]
      refine ⟨fun p hp => ?_, ih h.2⟩
      rcases (insertEnd_mem a p r).1 hp with rfl | hp
      · omega
      · exact h.1 p hp
    · rw [List.pairwise_cons, List.pairwise_cons]
      refine ⟨fun p hp => ?_, h⟩
      rcases List.mem_cons.1 hp with rfl | hp
      · omega
      · have := h.1 p hp; omega

theorem ends_srt : ∀ L : List Seg, (ends L).Pairwise (fun a b => a.1 ≤ b.1)
  | [] => by simp [ends]
  | s :: r => by rw [ends]; exact insertEnd_srt _ _ (insertEnd_srt _ _ (ends_srt r))

theorem ends_mem : ∀ (L : List Seg) (s : Seg), s ∈ L → (∃ c, (s.1.1.2, c) ∈ ends L) ∧ ∃ c, (s.1.2.2, c) ∈ ends L
  | [], s, h => by simp at h
  | a :: r, s, h => by
    rw [ends]
    rcases List.mem_cons.1 h with rfl | h
    · refine ⟨⟨_, (insertEnd_mem _ _ _).2 (Or.inl rfl)⟩, ⟨_, (insertEnd_mem _ _ _).2 (Or.inr ((insertEnd_mem _ _ _).2 (Or.inl rfl)))⟩⟩
    · obtain ⟨⟨c, h1⟩, ⟨d, h2⟩⟩ := ends_mem r s h
      exact ⟨⟨c, (insertEnd_mem _ _ _).2 (Or.inr ((insertEnd_mem _ _ _).2 (Or.inr h1)))⟩,
        ⟨d, (insertEnd_mem _ _ _).2 (Or.inr ((insertEnd_mem _ _ _).2 (Or.inr h2)))⟩⟩

theorem histGo_head : ∀ (l : List (Int × Int)) (cur : Hist), ∃ h r, histGo cur l = h :: r ∧ h.1 = cur.1
  | [], cur => ⟨cur, [], rfl, rfl⟩
  | a :: r, cur => by
    rw [histGo]
    dsimp only
    by_cases c : a.1 ≠ cur.1
    · rw [if_pos c]; exact ⟨cur, _, rfl, rfl⟩
    · rw [if_neg c]
      push Not at c
      obtain ⟨h, t, h1, h2⟩ := histGo_head r ((if a.2 < 0 then (((a.1, cur.2) : Hist).1, (((a.1, cur.2) : Hist).2.1, ((a.1, cur.2) : Hist).2.2 - a.2)) else (a.1, cur.2) : Hist).1,
        ((if a.2 < 0 then (((a.1, cur.2) : Hist).1, (((a.1, cur.2) : Hist).2.1, ((a.1, cur.2) : Hist).2.2 - a.2)) else (a.1, cur.2) : Hist).2.1 + a.2,
        (if a.2 < 0 then (((a.1, cur.2) : Hist).1, (((a.1, cur.2) : Hist).2.1, ((a.1, cur.2) : Hist).2.2 - a.2)) else (a.1, cur.2) : Hist).2.2))
      refine ⟨h, t, h1, h2.trans ?_⟩
      dsimp only
      split_ifs <;> exact c

theorem histogram_head {L : List Seg} (hL : L ≠ []) : ∃ h r, histogram L = h :: r ∧ ∀ s ∈ L, h.1 ≤ min s.1.1.2 s.1.2.2 := by
  unfold histogram
  have hs := ends_srt L
  have hm := ends_mem L
  match he : ends L with
  | [] =>
    obtain ⟨s, hs'⟩ := List.exists_mem_of_ne_nil L hL
    obtain ⟨⟨c, h1⟩, _⟩ := hm s hs'
    rw [he] at h1; simp at h1
  | a :: r =>
    dsimp only
    obtain ⟨h, t, h1, h2⟩ := histGo_head (a :: r) (a.1, (0, 0))
    refine ⟨h, t, h1, fun s hs' => ?_⟩
    rw [he, List.pairwise_cons] at hs
    have key : ∀ x ∈ a :: r, a.1 ≤ x.1 := by
      intro x hx
      rcases List.mem_cons.1 hx with rfl | hx
      · exact le_refl _
      · exact hs.1 x hx
    obtain ⟨⟨c, k1⟩, ⟨d, k2⟩⟩ := hm s hs'
    rw [he] at k1 k2
    have := key _ k1
    have := key _ k2
    rw [h2]
    dsimp only at *
    omega

/-! ### Numbering -/

theorem number_mem : ∀ (E : List Ev) (i : Nat) (s : Seg), s ∈ number i E ↔ ∃ j ev, E[j]? = some ev ∧ s = (ev.1, i + j)
  | [], i, s => by simp [number]
  | a :: r, i, s => by
    rw [number, List.mem_cons, number_mem r (i + 1)]
    constructor
    · rintro (rfl | ⟨j, ev, h1, rfl⟩)
      · exact ⟨0, a, rfl, rfl⟩
      · exact ⟨j + 1, ev, h1, by rw [show i + (j + 1) = i + 1 + j by ring]⟩
    · rintro ⟨j, ev, h1, rfl⟩
      cases j with
      | zero => left; simp only [List.getElem?_cons_zero, Option.some.injEq] at h1; rw [h1]; rfl
      | succ j => right; exact ⟨j, ev, h1, by rw [show i + 1 + j = i + (j + 1) by ring]⟩

theorem number_inj {E : List Ev} {i : Nat} {s t : Seg} (hs : s ∈ number i E) (ht : t ∈ number i E) (h : s.2 = t.2) : s = t := by
  obtain ⟨j, ev, h1, rfl⟩ := (number_mem _ _ _).1 hs
  obtain ⟨j', ev', h1', rfl⟩ := (number_mem _ _ _).1 ht
  have : j = j' := by simpa using h
  subst this
  rw [h1] at h1'
  rw [Option.some_inj.1 h1']

/-! ### What the division finds -/

/-- Segments with different numbers. -/
def Inj (L : List Seg) : Prop := ∀ s ∈ L, ∀ t ∈ L, s.2 = t.2 → s = t

theorem divide_srt (fp : FP) (umin : Int) (L : List Seg) (j : Nat) : (divide fp umin L j).Pairwise plt := by
  unfold divide
  dsimp only
  match histogram L with
  | [] => exact List.Pairwise.nil
  | h0 :: t =>
    exact scanBins_inv (P := fun ip => ∀ j, (ip j).Pairwise plt) (fun k i ip h => validate_srt _ _ _ _ h) _ 0 _ (fun _ => List.Pairwise.nil) j

/-- All points satisfy a property that the intersections have and that follows from the grid test. -/
theorem divide_inv (fp : FP) (umin : Int) (L : List Seg) (hL : Inj L) {N : Pt → Prop} {B : HE → Pt → Prop}
    (hend : ∀ s ∈ L, N s.1.1 ∧ N s.1.2)
    (hint : ∀ a ∈ L, ∀ b ∈ L, ∀ p, computeIntersection fp (nrm a.1) (nrm b.1) = some p → N p ∧ B a.1 p ∧ B b.1 p)
    (hgrid : ∀ a ∈ L, ∀ p, N p → grid p (nrm a.1) = true → B a.1 p) :
    ∀ s ∈ L, ∀ p ∈ divide fp umin L s.2, N p ∧ B s.1 p := by
  unfold divide
  dsimp only
  match histogram L with
  | [] => intro s _ p hp; simp at hp
  | h0 :: t =>
    refine scanBins_inv (P := fun ip => ∀ s ∈ L, ∀ p ∈ ip s.2, N p ∧ B s.1 p) (fun k i ip h => ?_) _ 0 _ (fun s _ p hp => by simp at hp)
    intro s hs p hp
    have sub : ∀ x, x ∈ L.filter (fun s => inBin (h0.1 :: yCuts (h0 :: t).length (h0 :: t) L.length) i s.1) → x ∈ L := fun x hx => (List.mem_filter.1 hx).1
    rcases validate_sound fp k _ ip s.2 p hp with h1 | ⟨a, ha, b, hb, h1, h2⟩ | ⟨a, ha, h1, h2, b, hb, h3⟩
    · exact h s hs p h1
    · obtain ⟨g1, g2, g3⟩ := hint a (sub a ha) b (sub b hb) p h1
      rcases h2 with h2 | h2
      · rw [hL s hs a (sub a ha) h2]; exact ⟨g1, g2⟩
      · rw [hL s hs b (sub b hb) h2]; exact ⟨g1, g3⟩
    · have hN : N p := by
        rcases h3 with rfl | rfl | h3 | ⟨c, hc, d, hd, h3⟩
        · exact (hend b (sub b hb)).1
        · exact (hend b (sub b hb)).2
        · exact (h b (sub b hb) p h3).1
        · exact (hint c (sub c hc) d (sub d hd) p h3).1
      rw [hL s hs a (sub a ha) h1]
      exact ⟨hN, hgrid a (sub a ha) p hN h2⟩

/-- In terms of the bins. -/
theorem divide_bins (fp : FP) (umin : Int) {L : List Seg} (hne : L ≠ []) : ∃ k0 cuts, divide fp umin L = scanBins fp (k0 :: cuts) L 0 (umin :: cuts) (fun _ => []) ∧
    ∀ s ∈ L, k0 ≤ min s.1.1.2 s.1.2.2 := by
  obtain ⟨h, r, h1, h2⟩ := histogram_head hne
  refine ⟨h.1, yCuts (h :: r).length (h :: r) L.length, ?_, h2⟩
  unfold divide
  rw [h1]

/-- End points are found on every segment where the grid test succeeds. -/
theorem divide_ends (fp : FP) (umin : Int) {L : List Seg} {a b : Seg} (ha : a ∈ L) (hb : b ∈ L) {p : Pt} (hp : p = b.1.1 ∨ p = b.1.2)
    (hg : grid p (nrm a.1) = true) : p ∈ divide fp umin L a.2 := by
  obtain ⟨k0, cuts, h1, h2⟩ := divide_bins fp umin (List.ne_nil_of_mem ha)
  rw [h1]
  have hbox := (inBox_iff _ _).1 (grid_inBox hg)
  have hbox' : min a.1.1.2 a.1.2.2 ≤ p.2 ∧ p.2 ≤ max a.1.1.2 a.1.2.2 := by
    have := nrm_box a.1 p
    rw [grid_inBox hg] at this
    exact ((inBox_iff _ _).1 this.symm).2.2
  have ka := h2 a ha
  have kb := h2 b hb
  have hpb : min b.1.1.2 b.1.2.2 ≤ p.2 ∧ p.2 ≤ max b.1.1.2 b.1.2.2 := by
    rcases hp with rfl | rfl <;> omega
  obtain ⟨k, g1, g2⟩ := binOf_min (k0 := k0) (umin := umin) (cuts := cuts) (y := p.2) (by omega)
  obtain ⟨ip0, g3, g4⟩ := scanBins_bin fp (k0 :: cuts) L (umin :: cuts) 0 (fun _ => []) _ k g1
  apply g4
  rw [Nat.zero_add]
  refine validate_ends fp k _ ip0 (b := b) ?_ ?_ ?_ hg
  · exact List.mem_filter.2 ⟨ha, inBin_binOf ka hbox'.1 hbox'.2⟩
  · exact List.mem_filter.2 ⟨hb, inBin_binOf kb hpb.1 hpb.2⟩
  · rcases hp with h | h
    · exact Or.inl h
    · exact Or.inr (Or.inl h)

/-- Proper crossings are found on every segment where the grid test succeeds. -/
theorem divide_cross (fp : FP) (umin : Int) {L : List Seg} {a b c : Seg} (ha : a ∈ L) (hb : b ∈ L) (hc : c ∈ L) {p : Pt}
    (hu : ∀ s ∈ L, umin ≤ min s.1.1.2 s.1.2.2)
    (h3 : computeIntersection fp (nrm a.1) (nrm b.1) = some p) (h4 : computeIntersection fp (nrm b.1) (nrm a.1) = some p)
    (h5 : ∀ k, (above k (nrm a.1) = true ∨ above k (nrm b.1) = true) → Compared k (nrm a.1) (nrm b.1) ∧ Compared k (nrm b.1) (nrm a.1))
    (hpa : inBox a.1 p = true) (hpb : inBox b.1 p = true) (hg : grid p (nrm c.1) = true) : p ∈ divide fp umin L c.2 := by
  obtain ⟨k0, cuts, h1, h2⟩ := divide_bins fp umin (List.ne_nil_of_mem ha)
  rw [h1]
  have hbox' : min c.1.1.2 c.1.2.2 ≤ p.2 ∧ p.2 ≤ max c.1.1.2 c.1.2.2 := by
    have := nrm_box c.1 p
    rw [grid_inBox hg] at this
    exact ((inBox_iff _ _).1 this.symm).2.2
  have ka := h2 a ha
  have kb := h2 b hb
  have kc := h2 c hc
  have ua := hu a ha
  have ub := hu b hb
  have hpa' := ((inBox_iff _ _).1 hpa).2.2
  have hpb' := ((inBox_iff _ _).1 hpb).2.2
  -- the bin where they are compared
  generalize hy : max (min a.1.1.2 a.1.2.2) (min b.1.1.2 b.1.2.2) = y
  obtain ⟨k, g1, g2⟩ := binOf_min (k0 := k0) (umin := umin) (cuts := cuts) (y := y) (by omega)
  obtain ⟨l, l1, l2⟩ := binOf_min (k0 := k0) (umin := umin) (cuts := cuts) (y := p.2) (by omega)
  have hab : ∀ (e : HE) (k : Int), k ≤ min e.1.2 e.2.2 → above k (nrm e) = true := by
    intro e k h
    unfold above
    rcases nrm_ends e with ⟨q1, q2⟩ | ⟨q1, q2⟩ <;> rw [q1, q2, Bool.and_eq_true, decide_eq_true_iff, decide_eq_true_iff] <;> omega
  have hk : k ≤ min a.1.1.2 a.1.2.2 ∨ k ≤ min b.1.1.2 b.1.2.2 := by
    rcases g2 with g2 | g2
    · omega
    · left; omega
  have hC := h5 k (hk.imp (hab _ _) (hab _ _))
  have ia : a ∈ L.filter (fun s => inBin (k0 :: cuts) (binOf (k0 :: cuts) y) s.1) :=
    List.mem_filter.2 ⟨ha, inBin_binOf ka (by omega) (by omega)⟩
  have ib : b ∈ L.filter (fun s => inBin (k0 :: cuts) (binOf (k0 :: cuts) y) s.1) :=
    List.mem_filter.2 ⟨hb, inBin_binOf kb (by omega) (by omega)⟩
  rcases Nat.lt_or_ge (binOf (k0 :: cuts) y) (binOf (k0 :: cuts) p.2) with hlt | hge
  · obtain ⟨ip1, ip2, m1, m2⟩ := scanBins_two fp (k0 :: cuts) L (umin :: cuts) 0 (fun _ => []) _ _ k l g1 l1 hlt
    rw [Nat.zero_add] at m1 m2
    have hin := (validate_cross fp k _ ip1 ia ib hC.1 hC.2 h3 h4).1
    apply m2
    refine validate_ends fp l _ ip2 (b := a) ?_ ?_ (Or.inr (Or.inr ⟨m1 _ _ hin, ?_⟩)) hg
    · exact List.mem_filter.2 ⟨hc, inBin_binOf kc hbox'.1 hbox'.2⟩
    · exact List.mem_filter.2 ⟨ha, inBin_binOf ka hpa'.1 hpa'.2⟩
    · rcases l2 with l2 | l2 <;> omega
  · have heq : binOf (k0 :: cuts) y = binOf (k0 :: cuts) p.2 := le_antisymm (binOf_mono _ (by omega)) hge
    obtain ⟨ip0, g3, g4⟩ := scanBins_bin fp (k0 :: cuts) L (umin :: cuts) 0 (fun _ => []) _ k g1
    apply g4
    rw [Nat.zero_add]
    refine (validate_cross fp k _ ip0 ia ib hC.1 hC.2 h3 h4).2.2 c ?_ hg
    rw [heq]
    exact List.mem_filter.2 ⟨hc, inBin_binOf kc hbox'.1 hbox'.2⟩

end Verif.Cut
