import Verif.Model.SegUtils
import Verif.Spec.SegUtils
import Verif.Proofs.CutInsert
/-! `intersect_segments` in terms of the cut edges. -/
namespace Verif.Cut
open Verif Verif.Arb Verif.Contains Verif.PolySet Verif.Spec Verif.Spec.Arb

theorem insertEnd_comm (a b : Int × Int) : ∀ L, insertEnd a (insertEnd b L) = insertEnd b (insertEnd a L)
  | [] => by
    simp only [insertEnd]
    split_ifs <;> first | rfl | (exfalso; omega) | (have : a = b := Prod.ext (by omega) (by omega)); subst this; rfl
  | c :: r => by
    have ih := insertEnd_comm a b r
    simp only [insertEnd]
    by_cases h1 : c.1 < b.1 ∨ c.1 = b.1 ∧ c.2 < b.2 <;> by_cases h2 : c.1 < a.1 ∨ c.1 = a.1 ∧ c.2 < a.2
    · simp only [if_pos h1, if_pos h2, insertEnd, ih]
    · simp only [if_pos h1, if_neg h2, insertEnd]
      rw [if_pos (show a.1 < b.1 ∨ a.1 = b.1 ∧ a.2 < b.2 by omega)]
    · simp only [if_neg h1, if_pos h2, insertEnd]
      rw [if_pos (show b.1 < a.1 ∨ b.1 = a.1 ∧ b.2 < a.2 by omega)]
    · simp only [if_neg h1, if_neg h2, insertEnd]
      by_cases h3 : b.1 < a.1 ∨ b.1 = a.1 ∧ b.2 < a.2
      · rw [if_pos h3, if_neg (by omega)]
      · rw [if_neg h3]
        by_cases h4 : a.1 < b.1 ∨ a.1 = b.1 ∧ a.2 < b.2
        · rw [if_pos h4]
        · have : a = b := Prod.ext (by omega) (by omega)
          subst this; rw [if_neg h3]

theorem norm_norm (s : Seg) : norm (norm s) = norm s := by
  unfold norm
  by_cases h : lessPoint s.1.2 s.1.1 = true
  · rw [if_pos h, if_neg]
    rw [Contains.lessPoint_iff] at *; dsimp only; omega
  · rw [if_neg h, if_neg h]

theorem norm_cases (s : Seg) : norm s = s ∨ norm s = ((s.1.2, s.1.1), s.2) := by
  unfold norm; split_ifs <;> simp

theorem ends_norm : ∀ L : List Seg, ends (L.map norm) = ends L
  | [] => rfl
  | s :: r => by
    rw [List.map_cons, ends, ends, ends_norm r]
    rcases norm_cases s with h | h
    · rw [h]
    · rw [h]
      dsimp only
      rcases lt_trichotomy s.1.1.2 s.1.2.2 with g | g | g
      · rw [if_pos g, if_neg (by omega), insertEnd_comm]; simp
      · rw [g]
      · rw [if_pos g, if_neg (show ¬ s.1.1.2 < s.1.2.2 by omega), insertEnd_comm]; simp

theorem inBin_norm (keys : List Int) (i : Nat) (s : Seg) : inBin keys i (norm s).1 = inBin keys i s.1 := by
  rcases norm_cases s with h | h
  · rw [h]
  · rw [h]; unfold inBin; dsimp only; rw [min_comm, max_comm]

theorem validate_norm (fp : FP) (k : Int) (L : List Seg) (ip : Pts) : validate fp k (L.map norm) ip = validate fp k L ip := by
  unfold validate
  rw [List.map_map, show norm ∘ norm = norm from funext norm_norm]

theorem scanBins_norm (fp : FP) (keys : List Int) (L : List Seg) : ∀ (ks : List Int) (i : Nat) (ip : Pts),
    scanBins fp keys (L.map norm) i ks ip = scanBins fp keys L i ks ip
  | [], _, _ => rfl
  | k :: r, i, ip => by
    rw [scanBins, scanBins, scanBins_norm fp keys L r, List.filter_map]
    rw [show ((fun s => inBin keys i s.1) ∘ norm) = (fun s : Seg => inBin keys i s.1) from funext (inBin_norm keys i), validate_norm]

theorem divide_norm (fp : FP) (umin : Int) (L : List Seg) : divide fp umin (L.map norm) = divide fp umin L := by
  have hh : histogram (L.map norm) = histogram L := by unfold histogram; rw [ends_norm]
  unfold divide
  rw [hh]
  cases histogram L with
  | nil => rfl
  | cons a r => dsimp only; rw [List.length_map, scanBins_norm]

theorem numb_norm : ∀ (S : List HE) (i : Nat), (numb i S).map norm = numb i (S.map nrm)
  | [], _ => rfl
  | e :: r, i => by rw [numb, List.map_cons, numb_norm r, List.map_cons, numb, norm_eq]

/-- The list of segments as events. -/
def evs (S : List HE) : List Ev := S.map (fun e => (nrm e, (0, 1)))

theorem number_evs : ∀ (S : List HE) (i : Nat), number i (evs S) = numb i (S.map nrm)
  | [], _ => rfl
  | e :: r, i => by
    have := number_evs r (i + 1)
    unfold evs at *
    rw [List.map_cons, number, this, List.map_cons, numb]

theorem divide_evs (fp : FP) (umin : Int) (S : List HE) : divide fp umin (number 0 (evs S)) = divide fp umin (numb 0 S) := by
  rw [number_evs, ← numb_norm, divide_norm]

theorem falls_nrm (e : HE) : Falls (nrm e) ↔ Falls e := by
  rcases nrm_ends e with ⟨h1, h2⟩ | ⟨h1, h2⟩
  · unfold Falls; rw [h1, h2]
  · unfold Falls; rw [h1, h2]; omega

theorem pieces_nrm (e : HE) (L : List Pt) : pieces (nrm e) L = pieces e L := by
  unfold pieces
  have : (!isVertical (nrm e) && lessSlope (nrm e).1 (nrm e).2 ((nrm e).1.1 + 1, (nrm e).1.2)) = (!isVertical e && lessSlope e.1 e.2 (e.1.1 + 1, e.1.2)) := by
    rw [Bool.eq_iff_iff, down_iff, down_iff, falls_nrm]
  rw [this]

theorem segGo_nrm (ip : Pts) : ∀ (S : List HE) (i : Nat), segGo ip i (S.map nrm) = segGo ip i S
  | [], _ => rfl
  | e :: r, i => by rw [List.map_cons, segGo, segGo, pieces_nrm, segGo_nrm ip r]

theorem seg_nrm (fp : FP) (umin : Int) (S : List HE) : intersectSegments fp umin (S.map nrm) = intersectSegments fp umin S := by
  unfold intersectSegments
  rw [← numb_norm, divide_norm, segGo_nrm]
  cases S <;> rfl

theorem segGo_mem (ip : Pts) : ∀ (S : List HE) (i : Nat) (x : Nat × HE), x ∈ segGo ip i S ↔ ∃ j e, S[j]? = some e ∧ x.1 = i + j ∧ x.2 ∈ pieces e (ip (i + j))
  | [], _, x => by simp [segGo]
  | e :: r, i, x => by
    rw [segGo, List.mem_append, segGo_mem ip r (i + 1), List.mem_map]
    constructor
    · rintro (⟨p, h, rfl⟩ | ⟨j, e', h1, h2, h3⟩)
      · exact ⟨0, e, rfl, rfl, h⟩
      · exact ⟨j + 1, e', h1, by omega, by rwa [show i + (j + 1) = i + 1 + j by ring]⟩
    · rintro ⟨j, e', h1, h2, h3⟩
      cases j with
      | zero =>
        left; simp only [List.getElem?_cons_zero, Option.some.injEq] at h1; subst h1
        exact ⟨x.2, h3, by rw [show i = x.1 by omega]⟩
      | succ j => right; exact ⟨j, e', h1, by omega, by rwa [show i + 1 + j = i + (j + 1) by ring]⟩

theorem seg_eq (fp : FP) (umin : Int) (S : List HE) : intersectSegments fp umin S = segGo (divide fp umin (numb 0 S)) 0 S := by
  unfold intersectSegments; cases S <;> rfl

theorem segGo_filter (ip : Pts) : ∀ (S : List HE) (i j : Nat) (e : HE), S[j]? = some e → withId (segGo ip i S) (i + j) = pieces e (ip (i + j))
  | [], _, _, _, h => by simp at h
  | e :: r, i, j, e', h => by
    have key : ∀ A B : List (Nat × HE), ∀ k, withId (A ++ B) k = withId A k ++ withId B k := by
      intro A B k; simp [withId]
    have hp : ∀ k, withId ((pieces e (ip i)).map (fun p => (i, p))) k = if k = i then pieces e (ip i) else [] := by
      intro k; unfold withId
      rw [List.filter_map, List.map_map]
      by_cases c : k = i
      · subst c; simp [Function.comp_def]
      · rw [if_neg c, List.filter_eq_nil_iff.2, List.map_nil]
        intro a _; simpa using fun h => c h.symm
    rw [segGo, key, hp]
    cases j with
    | zero =>
      simp only [List.getElem?_cons_zero, Option.some.injEq] at h; subst h
      rw [Nat.add_zero, if_pos rfl]
      have : withId (segGo ip (i + 1) r) i = [] := by
        unfold withId
        rw [List.filter_eq_nil_iff.2, List.map_nil]
        intro a ha
        obtain ⟨j, _, _, h2, _⟩ := (segGo_mem ip r (i + 1) a).1 ha
        simp; omega
      rw [this, List.append_nil]
    | succ j =>
      rw [if_neg (by omega), List.nil_append, show i + (j + 1) = i + 1 + j by ring]
      exact segGo_filter ip r (i + 1) j e' h

theorem segGo_sorted (ip : Pts) : ∀ (S : List HE) (i : Nat), (segGo ip i S).Pairwise (fun a b => a.1 ≤ b.1)
  | [], _ => List.Pairwise.nil
  | e :: r, i => by
    rw [segGo, List.pairwise_append]
    refine ⟨?_, segGo_sorted ip r (i + 1), ?_⟩
    · rw [List.pairwise_map]; exact List.pairwise_of_forall (fun _ _ => le_refl _)
    · intro a ha b hb
      obtain ⟨p, _, rfl⟩ := List.mem_map.1 ha
      obtain ⟨j, _, _, h2, _⟩ := (segGo_mem ip r (i + 1) b).1 hb
      dsimp only; omega

theorem chain_path : ∀ (a : Pt) (r : List Pt), Path a ((a :: r).getLast (by simp)) (chain (a :: r))
  | a, [] => rfl
  | a, b :: r => by
    rw [chain]
    refine ⟨rfl, ?_⟩
    have := chain_path b r
    rwa [List.getLast_cons (by simp)]

theorem lower_lo (e : HE) : lower e = lo e := by
  unfold lower lo
  by_cases h : lessPoint e.2 e.1 = true
  · rw [if_pos h]; rw [Contains.lessPoint_iff] at h; rw [if_pos h]
  · rw [if_neg h]; rw [Contains.lessPoint_iff] at h; rw [if_neg h]

theorem upper_hi (e : HE) : upper e = hi e := by
  unfold upper hi
  by_cases h : lessPoint e.2 e.1 = true
  · rw [if_pos h]; rw [Contains.lessPoint_iff] at h; rw [if_pos h]
  · rw [if_neg h]; rw [Contains.lessPoint_iff] at h; rw [if_neg h]

theorem numb_mem : ∀ (S : List HE) (i : Nat) (s : Seg), s ∈ numb i S ↔ ∃ j e, S[j]? = some e ∧ s = (e, i + j)
  | [], _, s => by simp [numb]
  | e :: r, i, s => by
    rw [numb, List.mem_cons, numb_mem r (i + 1)]
    constructor
    · rintro (h | ⟨j, e', h1, h2⟩)
      · exact ⟨0, e, rfl, h⟩
      · exact ⟨j + 1, e', h1, by rw [h2]; congr 1; omega⟩
    · rintro ⟨j, e', h1, h2⟩
      cases j with
      | zero => left; simp only [List.getElem?_cons_zero, Option.some.injEq] at h1; subst h1; exact h2
      | succ j => right; exact ⟨j, e', h1, by rw [h2]; congr 1; omega⟩

theorem seg_ok {fp : FP} (hfp : fp.Sane) (umin : Int) (S : List HE) {j : Nat} {e : HE} (h : S[j]? = some e) : OK e (divide fp umin (numb 0 S) (0 + j)) := by
  refine divide_ok hfp umin (fun s hs t ht hst => ?_) (e, 0 + j) ((numb_mem _ _ _).2 ⟨j, e, h, rfl⟩)
  obtain ⟨j, a, h1, rfl⟩ := (numb_mem _ _ _).1 hs
  obtain ⟨k, b, h2, rfl⟩ := (numb_mem _ _ _).1 ht
  have : j = k := by simpa using hst
  subst this; rw [h1] at h2; cases h2; rfl

theorem nrm_directed {e : HE} (h : e.1 ≠ e.2) : Directed (nrm e) := by
  unfold nrm Spec.Arb.Directed
  have : ¬ (e.1.1 = e.2.1 ∧ e.1.2 = e.2.2) := fun g => h (Prod.ext g.1 g.2)
  by_cases c : lessPoint e.2 e.1 = true
  · rw [if_pos c]; rw [Contains.lessPoint_iff] at c; dsimp only; omega
  · rw [if_neg c]; rw [Contains.lessPoint_iff] at c; omega

theorem evs_get {S : List HE} {j : Nat} {e : HE} (h : S[j]? = some e) : (evs S)[j]? = some (nrm e, (0, 1)) := by
  unfold evs; rw [List.getElem?_map, h]; rfl

theorem evs_dir {S : List HE} (h : ∀ e ∈ S, e.1 ≠ e.2) : ∀ e ∈ evs S, Directed e.1 := by
  intro e he
  obtain ⟨a, ha, rfl⟩ := List.mem_map.1 he
  exact nrm_directed (h a ha)

theorem evs_low {S : List HE} {umin : Int} (h : ∀ e ∈ S, umin ≤ min e.1.2 e.2.2) : ∀ e ∈ evs S, umin ≤ min e.1.1.2 e.1.2.2 := by
  intro e he
  obtain ⟨a, ha, rfl⟩ := List.mem_map.1 he
  have := h a ha
  rcases nrm_ends a with ⟨h1, h2⟩ | ⟨h1, h2⟩
  · dsimp only; rw [h1, h2]; exact this
  · dsimp only; rw [h1, h2, min_comm]; exact this

theorem nrm_cases (e : HE) : nrm e = e ∨ nrm e = e.swap := by unfold nrm; split_ifs <;> simp [Prod.swap]

theorem nrm_on {e : HE} {q : ℚ × ℚ} : OnEdge (nrm e) q ↔ OnEdge e q := by
  rcases nrm_cases e with h | h
  · rw [h]
  · rw [h]; exact ⟨fun g => by simpa using onEdge_swap g, fun g => onEdge_swap g⟩

theorem nrm_end {e : HE} {q : ℚ × ℚ} : EndOf (nrm e) q ↔ EndOf e q := by
  rcases nrm_cases e with h | h
  · rw [h]
  · rw [h]; unfold EndOf; simp only [Prod.fst_swap, Prod.snd_swap]; tauto

/-- A piece, with its end points in order, is an edge of the cut. -/
theorem piece_cut (fp : FP) (umin : Int) {S : List HE} {x : Nat × HE} (hx : x ∈ intersectSegments fp umin S) :
    nrm x.2 ∈ (cut fp umin (evs S)).map Prod.fst := by
  rw [seg_eq] at hx
  obtain ⟨j, e, h1, h2, h3⟩ := (segGo_mem _ _ _ _).1 hx
  have : finish (nrm e, (0, 1)) x.2 ∈ cut fp umin (evs S) := by
    unfold cut
    refine (cutGo_mem _ _ _ _).2 ⟨j, _, evs_get h1, List.mem_map.2 ⟨x.2, ?_, rfl⟩⟩
    rw [divide_evs, pieces_nrm]; exact h3
  refine List.mem_map.2 ⟨_, this, ?_⟩
  unfold finish nrm
  dsimp only
  split_ifs <;> rfl

theorem apart_of {fp : FP} {umin : Int} {S : List HE} (h : Planar ((cut fp umin (evs S)).map Prod.fst)) :
    Apart (intersectSegments' fp umin S) := by
  intro e he f hf h1 h2 q qe qf
  obtain ⟨x, hx, rfl⟩ := List.mem_map.1 he
  obtain ⟨y, hy, rfl⟩ := List.mem_map.1 hf
  have hne : nrm x.2 ≠ nrm y.2 := by
    intro g
    rcases nrm_cases x.2 with c | c <;> rcases nrm_cases y.2 with d | d <;> rw [c, d] at g
    · exact h1 g
    · exact h2 g
    · exact h2 (by rw [← g]; simp)
    · exact h1 (Prod.swap_injective g)
  have := h _ (piece_cut fp umin hx) _ (piece_cut fp umin hy) hne q (nrm_on.2 qe) (nrm_on.2 qf)
  exact ⟨nrm_end.1 this.1, nrm_end.1 this.2⟩


/-- When every segment is cut exactly at points on it, its pieces cover exactly its points. -/
theorem exact_cover {e : HE} (hd : Directed e) {L : List Pt} (hok : OK e L) (ho : ∀ p ∈ L, OnEdge e (cq p)) (q : ℚ × ℚ) :
    OnEdge e q ↔ ∃ p ∈ pieces e L, OnEdge p q := by
  rw [pieces_on hd hok.srt ho]
  constructor
  · intro hq
    obtain ⟨h0, h1, h2⟩ := (onEdge_lex hd q).1 hq
    have key : ∀ (a : Pt) (l : List Pt), (a :: l).Pairwise plt → (∀ p ∈ a :: l, OnEdge e (cq p)) → lle (cq a) q →
        lle q (cq ((a :: l).getLast (by simp))) → l ≠ [] → ∃ p ∈ chain (a :: l), OnEdge p q := by
      intro a l
      induction l generalizing a with
      | nil => intro _ _ _ _ h; exact absurd rfl h
      | cons b l ih =>
        intro hs hon ha hb _
        have hab : plt a b := (List.pairwise_cons.1 hs).1 b (by simp)
        by_cases c : lle q (cq b)
        · refine ⟨(a, b), by simp [chain], ?_⟩
          have dab : Directed (a, b) := hab
          rw [onEdge_lex dab]
          refine ⟨?_, ha, c⟩
          have e1 := ((onEdge_lex hd _).1 (hon a (by simp))).1
          have e2 := ((onEdge_lex hd _).1 (hon b (by simp))).1
          have hc : cr (a, b) e = 0 := by
            rw [cr_symm, part_parallel hd dab (hon a (by simp)) (hon b (by simp))]; rfl
          exact line_same hd hc ((onEdge_lex dab _).1 (onEdge_fst (a, b))).1 e1 h0
        · have hb' : lle (cq b) q := (lle_total _ _).resolve_right c
          cases l with
          | nil => exact absurd (by simpa using hb) c
          | cons d l =>
            obtain ⟨p, hp, hpq⟩ := ih b (List.pairwise_cons.1 hs).2 (fun p hp => hon p (List.mem_cons_of_mem _ hp)) hb' (by simpa using hb) (by simp)
            exact ⟨p, by rw [chain]; exact List.mem_cons_of_mem _ hp, hpq⟩
    obtain ⟨r, g1, g2⟩ := ord_ends hok
    have hLo : ord e L = L := by
      have := pieces_on hd hok.srt ho
      unfold ord
      split_ifs with c
      · have := pieces_on hd hok.srt ho
        refine sortDown_id L ?_
        have hf := (down_iff e).1 c
        obtain ⟨s1, s2⟩ := ord_spec (e := e) hok.srt
        refine hok.srt.imp_of_mem ?_
        intro a b ha hb hab
        by_contra hn
        have hx : a.1 = b.1 := by unfold plt dlt at *; omega
        have := (vert_on hd (ho a ha) (ho b hb) hab).1 hx
        unfold Falls at hf; omega
      · rfl
    rw [hLo] at g1
    have hlo : lo e = e.1 := by
      unfold lo; rw [if_neg]; rw [Contains.lessPoint_iff]; unfold Spec.Arb.Directed at hd; omega
    have hhi : hi e = e.2 := by
      unfold hi; rw [if_neg]; rw [Contains.lessPoint_iff]; unfold Spec.Arb.Directed at hd; omega
    rw [g1]
    refine key (lo e) r (g1 ▸ hok.srt) (fun p hp => ho p (g1 ▸ hp)) (by rw [hlo]; exact h1) (by rw [g2, hhi]; exact h2) ?_
    rintro rfl
    simp only [List.getLast_singleton] at g2
    rw [hlo, hhi] at g2
    exact dir_ne hd g2
  · rintro ⟨p, hp, hq⟩
    obtain ⟨g1, g2, g3⟩ := chain_pairwise _ hok.srt p hp
    exact sub_onEdge hd g1 (ho _ g2) (ho _ g3) hq

/-- A point of a segment between the points where it hits two squares is less than a unit to the right of and above a
point that joins the corners. -/
theorem near_back {e : HE} {u v : Pt} {s t x : ℚ} (hs : (u.1 : ℚ) ≤ e.1.1 + s * (e.2.1 - e.1.1) ∧ e.1.1 + s * (e.2.1 - e.1.1) < u.1 + 1 ∧
      (u.2 : ℚ) ≤ e.1.2 + s * (e.2.2 - e.1.2) ∧ e.1.2 + s * (e.2.2 - e.1.2) < u.2 + 1)
    (ht : (v.1 : ℚ) ≤ e.1.1 + t * (e.2.1 - e.1.1) ∧ e.1.1 + t * (e.2.1 - e.1.1) < v.1 + 1 ∧
      (v.2 : ℚ) ≤ e.1.2 + t * (e.2.2 - e.1.2) ∧ e.1.2 + t * (e.2.2 - e.1.2) < v.2 + 1) (h1 : s ≤ x) (h2 : x ≤ t) :
    ∃ q, OnEdge (u, v) q ∧ q.1 ≤ e.1.1 + x * (e.2.1 - e.1.1) ∧ e.1.1 + x * (e.2.1 - e.1.1) < q.1 + 1 ∧
      q.2 ≤ e.1.2 + x * (e.2.2 - e.1.2) ∧ e.1.2 + x * (e.2.2 - e.1.2) < q.2 + 1 := by
  obtain ⟨b, b0, b1, hb⟩ : ∃ b : ℚ, 0 ≤ b ∧ b ≤ 1 ∧ x = s + b * (t - s) := by
    rcases (h1.trans h2).lt_or_eq with g | g
    · have : 0 < t - s := by linarith
      refine ⟨(x - s) / (t - s), div_nonneg (by linarith) this.le, (div_le_one this).2 (by linarith), ?_⟩
      field_simp; ring
    · exact ⟨0, le_refl _, by norm_num, by linarith⟩
  refine ⟨(u.1 + b * (v.1 - u.1), u.2 + b * (v.2 - u.2)), ⟨b, b0, b1, rfl, rfl⟩, ?_⟩
  obtain ⟨a1, a2, a3, a4⟩ := hs
  obtain ⟨c1, c2, c3, c4⟩ := ht
  have b2 : 0 ≤ 1 - b := by linarith
  have lt : ∀ {p q r w : ℚ}, p < q → r < w → (1 - b) * p + b * r < (1 - b) * q + b * w := by
    intro p q r w h k
    rcases b0.lt_or_eq with g | g
    · have := mul_lt_mul_of_pos_left k g
      have := mul_le_mul_of_nonneg_left h.le b2
      linarith
    · rw [← g]; linarith
  have le : ∀ {p q r w : ℚ}, p ≤ q → r ≤ w → (1 - b) * p + b * r ≤ (1 - b) * q + b * w := by
    intro p q r w h k
    have := mul_le_mul_of_nonneg_left k b0
    have := mul_le_mul_of_nonneg_left h b2
    linarith
  have e1 := le a1 c1
  have e2 := lt a2 c2
  have e3 := le a3 c3
  have e4 := lt a4 c4
  dsimp only
  rw [hb]
  refine ⟨?_, ?_, ?_, ?_⟩ <;> linarith

theorem snap_cover {e : HE} (hd : Directed e) {L : List Pt} (hok : OK e L) (ho : ∀ p ∈ L, HitsSquare e p) {z : ℚ × ℚ} (hz : OnEdge e z) :
    ∃ p ∈ pieces e L, ∃ q, OnEdge p q ∧ q.1 ≤ z.1 ∧ z.1 < q.1 + 1 ∧ q.2 ≤ z.2 ∧ z.2 < q.2 + 1 := by
  obtain ⟨x, x0, x1, hx, hy⟩ := hz
  obtain ⟨r, g1, g2⟩ := ord_ends hok
  obtain ⟨s1, s2⟩ := ord_spec (e := e) hok.srt
  have hlo : lo e = e.1 := by
    unfold lo; rw [if_neg]; rw [Contains.lessPoint_iff]; unfold Spec.Arb.Directed at hd; omega
  have hhi : hi e = e.2 := by
    unfold hi; rw [if_neg]; rw [Contains.lessPoint_iff]; unfold Spec.Arb.Directed at hd; omega
  let At : Pt → ℚ → Prop := fun u s => (u.1 : ℚ) ≤ e.1.1 + s * (e.2.1 - e.1.1) ∧ e.1.1 + s * (e.2.1 - e.1.1) < u.1 + 1 ∧
      (u.2 : ℚ) ≤ e.1.2 + s * (e.2.2 - e.1.2) ∧ e.1.2 + s * (e.2.2 - e.1.2) < u.2 + 1
  have hat : ∀ p ∈ lo e :: r, ∃ s, At p s := by
    intro p hp
    obtain ⟨q, ⟨t, _, _, q1, q2⟩, k⟩ := ho p ((s2 p).1 (g1 ▸ hp))
    exact ⟨t, by show _ ∧ _; rw [← q1, ← q2]; exact k⟩
  have key : ∀ (a : Pt) (l : List Pt) (s : ℚ), At a s → s ≤ x → (∀ p ∈ a :: l, ∃ s, At p s) → (a :: l).getLast (by simp) = e.2 → l ≠ [] →
      ∃ p ∈ chain (a :: l), ∃ q, OnEdge p q ∧ q.1 ≤ z.1 ∧ z.1 < q.1 + 1 ∧ q.2 ≤ z.2 ∧ z.2 < q.2 + 1 := by
    intro a l
    induction l generalizing a with
    | nil => intro _ _ _ _ _ h; exact absurd rfl h
    | cons b l ih =>
      intro s hs hsx hall hlast _
      obtain ⟨t, ht, hc⟩ : ∃ t, At b t ∧ (l = [] → x ≤ t) := by
        by_cases c : l = []
        · subst c
          refine ⟨1, ?_, fun _ => x1⟩
          have : b = e.2 := by simpa using hlast
          rw [this]
          refine ⟨by linarith, by linarith, by linarith, by linarith⟩
        · obtain ⟨t, ht⟩ := hall b (by simp)
          exact ⟨t, ht, fun h => absurd h c⟩
      by_cases c : x ≤ t
      · obtain ⟨q, h1, h2⟩ := near_back hs ht hsx c
        refine ⟨(a, b), by simp [chain], q, h1, ?_⟩
        rw [hx, hy]; exact h2
      · obtain ⟨p, hp, hq⟩ := ih b t ht (le_of_lt (not_le.1 c)) (fun p hp => hall p (List.mem_cons_of_mem _ hp)) (by simpa using hlast) (fun h => c (hc h))
        exact ⟨p, by rw [chain]; exact List.mem_cons_of_mem _ hp, hq⟩
  rw [pieces_eq, g1]
  refine key (lo e) r 0 ?_ x0 hat (by rw [g2, hhi]) ?_
  · rw [hlo]; refine ⟨by linarith, by linarith, by linarith, by linarith⟩
  · rintro rfl
    simp only [List.getLast_singleton] at g2
    rw [hlo, hhi] at g2
    exact dir_ne hd g2

theorem evs_fst (S : List HE) : (evs S).map Prod.fst = S.map nrm := by
  unfold evs; rw [List.map_map]; rfl

theorem nrm_swap (e : HE) : nrm e.swap = nrm e := by
  unfold nrm
  by_cases h : lessPoint e.2 e.1 = true
  · rw [if_pos h, if_neg]
    · rfl
    · simp only [Prod.fst_swap, Prod.snd_swap]; rw [Contains.lessPoint_iff] at *; omega
  · rw [if_neg h]
    simp only [Prod.fst_swap, Prod.snd_swap]
    by_cases g : lessPoint e.1 e.2 = true
    · rw [if_pos g]
    · rw [if_neg g]
      rw [Contains.lessPoint_iff] at *
      have : e.1 = e.2 := Prod.ext (by omega) (by omega)
      exact Prod.ext this.symm this

theorem exact_seg {fp : FP} {umin : Int} {S : List HE} (h : Exact fp umin (S.map nrm)) :
    (∀ i e, S[i]? = some e → ∀ q, OnEdge e q ↔ ∃ p ∈ withId (intersectSegments fp umin S) i, OnEdge p q) ∧
    Apart ((intersectSegments fp umin S).map Prod.snd) := by
  have h' : Exact fp umin ((evs S).map Prod.fst) := by rw [evs_fst]; exact h
  refine ⟨?_, apart_of (exact_planar h')⟩
  intro i e hi q
  obtain ⟨h1, h2, h3⟩ := exact_ok h' (evs_get hi)
  have := exact_cover h1 h2 h3 q
  rw [nrm_on] at this
  rw [this, divide_evs, pieces_nrm, seg_eq]
  have hf := segGo_filter (divide fp umin (numb 0 S)) S 0 i e hi
  rw [← hf, Nat.zero_add]

theorem nrm_manhattan {S : List HE} (h : Manhattan S) : Manhattan (S.map nrm) := by
  intro e he
  obtain ⟨a, ha, rfl⟩ := List.mem_map.1 he
  have := h a ha
  rcases nrm_ends a with ⟨g1, g2⟩ | ⟨g1, g2⟩ <;> rw [g1, g2] <;> omega

theorem nrm_dirs {S : List HE} (h : ∀ e ∈ S, e.1 ≠ e.2) : ∀ e ∈ S.map nrm, Directed e := by
  intro e he
  obtain ⟨a, ha, rfl⟩ := List.mem_map.1 he
  exact nrm_directed (h a ha)

theorem nrm_low {S : List HE} {umin : Int} (h : ∀ e ∈ S, umin ≤ min e.1.2 e.2.2) : ∀ e ∈ S.map nrm, umin ≤ min e.1.2 e.2.2 := by
  intro e he
  obtain ⟨a, ha, rfl⟩ := List.mem_map.1 he
  have := h a ha
  rcases nrm_ends a with ⟨h1, h2⟩ | ⟨h1, h2⟩
  · rw [h1, h2]; exact this
  · rw [h1, h2, min_comm]; exact this

theorem nrm_parallel (a b : HE) : Parallel (nrm a) (nrm b) ↔ Parallel a b := by
  rw [parallel_iff, parallel_iff]
  rcases nrm_cases a with c | c <;> rcases nrm_cases b with d | d <;> rw [c, d] <;> unfold cr <;> simp only [Prod.fst_swap, Prod.snd_swap] <;>
    constructor <;> intro h <;> linarith

theorem nrm_hits (e : HE) (p : Pt) : HitsSquare (nrm e) p ↔ HitsSquare e p := by
  unfold HitsSquare
  simp only [nrm_on]

theorem nrm_junction {S : List HE} {p : Pt} (h : Junction (S.map nrm) p) : Junction S p := by
  rcases h with ⟨a, ha, h⟩ | ⟨a, ha, b, hb, h1, h2, h3⟩
  · obtain ⟨a, ha', rfl⟩ := List.mem_map.1 ha
    left; refine ⟨a, ha', ?_⟩
    rcases nrm_ends a with ⟨g1, g2⟩ | ⟨g1, g2⟩ <;> rw [g1, g2] at h
    · exact h
    · exact h.symm
  · obtain ⟨a, ha', rfl⟩ := List.mem_map.1 ha
    obtain ⟨b, hb', rfl⟩ := List.mem_map.1 hb
    rw [nrm_parallel] at h1
    exact Or.inr ⟨a, ha', b, hb', h1, nrm_on.1 h2, nrm_on.1 h3⟩

theorem nrm_lattice {S : List HE} (h : OnLattice S) : OnLattice (S.map nrm) := by
  refine ⟨?_, ?_⟩
  · intro a ha b hb hp q h1 h2
    obtain ⟨a, ha', rfl⟩ := List.mem_map.1 ha
    obtain ⟨b, hb', rfl⟩ := List.mem_map.1 hb
    rw [nrm_parallel] at hp
    exact h.1 a ha' b hb' hp q (nrm_on.1 h1) (nrm_on.1 h2)
  · intro p hp a ha hh
    obtain ⟨a, ha', rfl⟩ := List.mem_map.1 ha
    rw [nrm_hits] at hh
    exact nrm_on.2 (h.2 p (nrm_junction hp) a ha' hh)

theorem nrm_hot {S : List HE} {p : Pt} (h : Hot (S.map nrm) p) : Hot S p := by
  rcases h with ⟨a, ha, h⟩ | ⟨a, ha, b, hb, h1, q, h2, h3, h4⟩
  · obtain ⟨a, ha', rfl⟩ := List.mem_map.1 ha
    left; refine ⟨a, ha', ?_⟩
    rcases nrm_ends a with ⟨g1, g2⟩ | ⟨g1, g2⟩ <;> rw [g1, g2] at h
    · exact h
    · exact h.symm
  · obtain ⟨a, ha', rfl⟩ := List.mem_map.1 ha
    obtain ⟨b, hb', rfl⟩ := List.mem_map.1 hb
    rw [nrm_parallel] at h1
    exact Or.inr ⟨a, ha', b, hb', h1, q, nrm_on.1 h2, nrm_on.1 h3, h4⟩

/-- With exact arithmetic. -/
theorem snap_seg {fp : FP} (hfp : fp.Floor) {umin : Int} {S : List HE} (hn : ∀ e ∈ S, e.1 ≠ e.2) (hu : ∀ e ∈ S, umin ≤ min e.1.2 e.2.2) :
    Apart ((intersectSegments fp umin S).map Prod.snd) ∧
    (∀ x ∈ intersectSegments fp umin S, ∃ e, S[x.1]? = some e ∧ Near x.2 e ∧ Hot S x.2.1 ∧ Hot S x.2.2) ∧
    ∀ i e, S[i]? = some e → ∀ z, OnEdge e z → ∃ p ∈ withId (intersectSegments fp umin S) i, ∃ q, OnEdge p q ∧
      q.1 ≤ z.1 ∧ z.1 < q.1 + 1 ∧ q.2 ≤ z.2 ∧ z.2 < q.2 + 1 := by
  have hd := evs_dir hn
  have hl := evs_low hu
  refine ⟨apart_of (snap_planar hfp hd hl), ?_, ?_⟩
  · intro x hx
    rw [seg_eq] at hx
    obtain ⟨j, e, h1, h2, h3⟩ := (segGo_mem _ _ _ _).1 hx
    rw [← divide_evs, ← pieces_nrm] at h3
    have hP := snap_piece hfp hd hl (evs_get h1) h3
    refine ⟨e, by rw [h2, Nat.zero_add]; exact h1, ?_, ?_, ?_⟩
    · have := near_of hP.su hP.sv
      intro q hq
      obtain ⟨z, hz, h⟩ := this q hq
      exact ⟨z, nrm_on.1 hz, h⟩
    · have := hP.hu; rw [evs_fst] at this; exact nrm_hot this
    · have := hP.hv; rw [evs_fst] at this; exact nrm_hot this
  · intro i e hi z hz
    have hok := snap_ok hfp hd hl (evs_get hi)
    obtain ⟨p, hp, h⟩ := snap_cover (nrm_directed (hn e (List.mem_of_getElem? hi))) hok
      (fun p hp => ((cut_snap hfp hd hl (evs_get hi) p).1 hp).2) (nrm_on.2 hz)
    refine ⟨p, ?_, h⟩
    have hf := segGo_filter (divide fp umin (numb 0 S)) S 0 i e hi
    rw [seg_eq]
    rw [Nat.zero_add] at hf
    rw [hf, ← pieces_nrm]
    rw [divide_evs, Nat.zero_add] at hp; exact hp

end Verif.Cut
