import Verif.Proofs.PolyState
/-!
# The bottom end of a vertical edge
-/
namespace Verif.Proofs.PolyBottom
open Verif.PolyForm Verif.Proofs.PolyGross Verif.Proofs.PolyPath Verif.Proofs.PolyLam Verif.Proofs.PolyWeb Verif.Proofs.PolyInv Verif.Proofs.PolyCol Verif.Interval

theorem srt_split (lo : Int) : ∀ U : List (Int × Nat), Srt U → ∃ U1 U2, U = U1 ++ U2 ∧ (∀ e ∈ U1, e.1 < lo) ∧ ∀ e ∈ U2, lo ≤ e.1
  | [], _ => ⟨[], [], rfl, by simp, by simp⟩
  | e :: U, h => by
    have h' := List.pairwise_cons.1 h
    by_cases he : e.1 < lo
    · obtain ⟨U1, U2, a, b, c⟩ := srt_split lo U h'.2
      refine ⟨e :: U1, U2, by rw [a]; rfl, fun d hd => ?_, c⟩
      rcases List.mem_cons.1 hd with rfl | hd
      · exact he
      · exact b d hd
    · refine ⟨[], e :: U, rfl, by simp, fun d hd => ?_⟩
      rcases List.mem_cons.1 hd with rfl | hd
      · omega
      · have := h'.1 d hd; omega

/-- `Gap` moved up to the next edge. -/
structure Pre (fr : Bool) (X : Int) (fm fp : Int → Int) (base : Bs) (y : Int) (D U : List (Int × Nat)) (Z : List Nat) (s : St) : Prop where
  map : s.map = D ++ U
  srt : Srt (D ++ U)
  hD : ∀ e ∈ D, e.1 < y
  hU : ∀ e ∈ U, y ≤ e.1
  g : G fr X s.H (D.map (·.2) ++ cl fr s.H s.cur ++ U.map (·.2)) Z
  ent : ∀ e ∈ D ++ U, Ent s.H e
  old : ∀ e ∈ U, Old X s.H e.2 ∨ (fr = true ∧ s.cur = none ∧ e.1 = y ∧ ∃ b q, pth s.H e.2 = e.1 :: X :: b :: q ∧ b < e.1)
  pend : ∀ c, s.cur = some c →
    (if fr then vrt s.H c = true ∧ (∃ b q, pth s.H c = X :: b :: q ∧ b < y) ∧ vrt s.H (oth s.H c) = false ∧ (∃ z x q, z < y ∧ pth s.H (oth s.H c) = z :: x :: q ∧ x < X)
     else (c ∈ Z ∧ ∀ n ∈ s.out, n ≠ c ∧ n ≠ oth s.H c) ∧ (D.length : Int) % 2 = 1 ∧ ∀ i j, i < X → Pend s.H (D.map (·.2) ++ U.map (·.2)) c (D.length - 1) i j)
  hfp : ∀ j, j < y → fp j = cnt D j % 2
  hfm : ∀ j, y ≤ j → fm j = (D.length + cnt U j) % 2
  nm : NmOk s.nm U
  out : ∀ n ∈ s.out, n ∈ Z
  tot : ∀ i j, i < X → tot s.H (D.map (·.2) ++ cl fr s.H s.cur ++ U.map (·.2)) s.out (pd fr s.cur) i j = base.c i j ∧ ∀ n ∈ s.out, 0 ≤ ov s.H i j n
  gr : fr = false → Gr base.h base.v X (gx fm fp y) s.H (D.map (·.2) ++ cl fr s.H s.cur ++ U.map (·.2)) s.out (pd fr s.cur)

variable {fr : Bool} {X : Int} {fm fp : Int → Int} {base : Bs} {es : List Ivl} {y : Int} {D U : List (Int × Nat)} {Z : List Nat} {s : St}

theorem gap_pre (h : Gap fr X fm fp base es y D U Z s) {lo : Int} (hlo : y < lo) (hes : ∀ d ∈ es, lo ≤ d.lo)
    (hin : ∃ d ∈ es, d.lo = lo)
    (hq : ∀ j, y ≤ j → j < lo → fm j = fp j) : ∃ D' U', Pre fr X fm fp base lo D' U' Z s := by
  obtain ⟨U1, U2, rfl, h1, h2⟩ := srt_split lo U (srt_append.1 h.srt).2.1
  have hU1 : ∀ c, s.cur = some c → U1 = [] := by
    intro c hc
    have hp := (h.pend c hc).1
    cases U1 with
    | nil => rfl
    | cons e U1 =>
      obtain ⟨d, hd, hd'⟩ := hp e (by simp)
      have := hes d hd
      have := h1 e (by simp)
      omega
  have hS : D.map (·.2) ++ cl fr s.H s.cur ++ (U1 ++ U2).map (·.2) = (D ++ U1).map (·.2) ++ cl fr s.H s.cur ++ U2.map (·.2) := by
    cases hc : s.cur with
    | none => simp [cl]
    | some c =>
      have := hU1 c hc
      subst this; simp
  have hnl : (D.length : Int) + U1.length = (D ++ U1).length := by rw [List.length_append]; push_cast; rfl
  refine ⟨D ++ U1, U2, ?_⟩
  constructor
  · rw [h.map, List.append_assoc]
  · rw [List.append_assoc]; exact h.srt
  · intro e he
    rcases List.mem_append.1 he with a | a
    · have := h.hD e a; omega
    · exact h1 e a
  · exact h2
  · rw [← hS]; exact h.g
  · intro e he; refine h.ent e ?_; rw [List.append_assoc] at he; exact he
  · intro e he
    rcases h.old e (by simp [he]) with a | ⟨a0, a, b, c⟩
    · exact Or.inl a
    · right
      obtain ⟨d, hd, hd'⟩ := hin
      have := b d hd
      have := h2 e he
      exact ⟨a0, a, by omega, c⟩
  · intro c hc
    have := (h.pend c hc).2.2
    cases fr with
    | false => have h0 := hU1 c hc; subst h0; simpa using this
    | true =>
      simp only [if_true] at this ⊢
      obtain ⟨a, ⟨b, q, e1, e2⟩, d, x, q', e3, e4⟩ := this
      exact ⟨a, ⟨b, q, e1, by omega⟩, d, y, x, q', hlo, e3, e4⟩
  · intro j hj
    rw [cnt_append]
    by_cases hy : j < y
    · rw [h.hfp j hy, cnt_none (L := U1) (fun e he => by have := h.hU e (by simp [he]); omega), Int.add_zero]
    · rw [← hq j (by omega) hj, h.hfm j (by omega), cnt_all (L := D) (fun e he => by have := h.hD e he; omega), cnt_append,
        cnt_none (L := U2) (fun e he => by have := h2 e he; omega), Int.add_zero]
  · intro j hj
    rw [h.hfm j (by omega), cnt_append, cnt_all (L := U1) (fun e he => by have := h1 e he; omega), ← hnl]
    congr 1; ring
  · intro p hp e he; exact h.nm p hp e (by simp [he])
  · exact h.out
  · intro i j hi; rw [← hS]; exact h.tot i j hi
  · intro hf; rw [← hS]; exact gr_congr (h.gr hf) (gx_skip hlo hq)

theorem pre_find (h : Pre fr X fm fp base y D U Z s) : findAtNext s.map s.nm y = mfind (D ++ U) y := by
  rw [h.map]; exact findAt_eq h.nm h.hD

/-- The end at a new edge becomes the current one. -/
theorem pre_take {t : Nat} (h : Pre fr X fm fp base y D ((y, t) :: U) Z s) :
    s.map = D ++ (y, t) :: U ∧ findAtNext s.map s.nm y = some t ∧ mnext s.map y = U.head?.map (·.1) ∧ merase s.map y = D ++ U ∧
    (∀ e ∈ U, y < e.1) ∧ Srt (D ++ U) ∧ (∀ j, y ≤ j → fm j = (D.length + 1 + cnt U j) % 2) ∧
    (∀ e ∈ D ++ U, Ent s.H e) ∧ (∀ e ∈ U, Old X s.H e.2) ∧ Ent s.H (y, t) := by
  obtain ⟨s1, s2, s3⟩ := srt_drop h.srt
  refine ⟨h.map, ?_, ?_, ?_, s3, s1, ?_, ?_, ?_, ?_⟩
  · rw [pre_find h]; exact find_mid h.hD
  · have e : D ++ (y, t) :: U = (D ++ [(y, t)]) ++ U := by simp
    rw [h.map, e]
    refine next_mid (fun e he => ?_) s3
    rcases List.mem_append.1 he with a | a
    · have := h.hD e a; omega
    · rw [List.mem_singleton.1 a]
  · rw [h.map]; exact erase_mid h.hD s3
  · intro j hj
    rw [h.hfm j hj, cnt_cons, if_pos hj]; congr 1; ring
  · intro e he; refine h.ent e ?_
    rcases List.mem_append.1 he with a | a <;> simp [a]
  · intro e he
    rcases h.old e (by simp [he]) with a | ⟨_, _, b, _⟩
    · exact a
    · have := s3 e he; dsimp only at this; omega
  · exact h.ent (y, t) (by simp)

theorem nm_head (U : List (Int × Nat)) (h : Srt U) : NmOk (U.head?.map (·.1)) U := by
  intro p hp e he
  cases U with
  | nil => simp at he
  | cons a U =>
    simp at hp
    rcases List.mem_cons.1 he with rfl | he
    · omega
    · have := (List.pairwise_cons.1 h).1 e he; omega

theorem out_op {X : Int} {H H' : Heap} {S S' Z out : List Nat} (g : G fr X H S Z) (o : Op X H S H' S') (b : Int → Int → Int)
    (hout : ∀ n ∈ out, n ∈ Z) (ht : ∀ i j, i < X → tot H S out none i j = b i j ∧ ∀ n ∈ out, 0 ≤ ov H i j n) :
    ∀ i j, i < X → tot H' S' out none i j = b i j ∧ ∀ n ∈ out, 0 ≤ ov H' i j n :=
  fun i j hi => by
    obtain ⟨h1, h2⟩ := tot_op g o hout (fun c hc => absurd hc (by simp)) hi (pd := none) (j := j)
    obtain ⟨h3, h4⟩ := ht i j hi
    exact ⟨by rw [h1, h3], fun n hn => by rw [h2 n hn]; exact h4 n hn⟩

theorem srt_keys {m : List (Int × Nat)} (h : Srt m) {a b : Int × Nat} (ha : a ∈ m) (hb : b ∈ m) (he : a.1 = b.1) : a = b := by
  induction m with
  | nil => simp at ha
  | cons c m ih =>
    have h' := List.pairwise_cons.1 h
    rcases List.mem_cons.1 ha with rfl | ha' <;> rcases List.mem_cons.1 hb with rfl | hb'
    · rfl
    · have := h'.1 b hb'; omega
    · have := h'.1 a ha'; omega
    · exact ih h'.2 ha' hb'

/-- Found, nothing pending. -/
theorem bottom_found {t : Nat} (h : Pre fr X fm fp base y D ((y, t) :: U) Z s) (hc : s.cur = none) :
    ∃ s', bottomEnd fr X y s = some s' ∧ Mid fr X fm fp base y D U t Z s' := by
  obtain ⟨e1, e2, e3, e4, e5, e6, e7, e8, e9, e10⟩ := pre_take h
  have hg := h.g
  have hS : D.map (·.2) ++ cl fr s.H s.cur ++ ((y, t) :: U).map (·.2) = D.map (·.2) ++ t :: U.map (·.2) := by rw [hc]; simp [cl]
  rw [hS] at hg
  have htS : t ∈ D.map (·.2) ++ t :: U.map (·.2) := by simp
  have hnt : ∀ e ∈ D ++ U, e.2 ≠ t := by
    intro e he hh
    have nd := hg.web.nodup
    have := List.nodup_append.1 nd
    rcases List.mem_append.1 he with a | a
    · exact this.2.2 e.2 (List.mem_map.2 ⟨e, a, rfl⟩) t (by simp) hh
    · have h2 := List.nodup_cons.1 this.2.1
      exact h2.1 (List.mem_map.2 ⟨e, a, hh⟩)
  have hpush : ∃ H', s.H.push t X = some H' ∧ G fr X H' (D.map (·.2) ++ t :: U.map (·.2)) Z ∧ Op X s.H (D.map (·.2) ++ t :: U.map (·.2)) H' (D.map (·.2) ++ t :: U.map (·.2)) ∧
      vrt H' t = true ∧ (∃ b q, pth H' t = X :: b :: q ∧ b ≤ y) ∧ (∀ n ∈ D.map (·.2) ++ t :: U.map (·.2), n ≠ t → Near s.H H' n) ∧
      (fr = false → Gr base.h base.v X (mx fm fp y) H' (D.map (·.2) ++ t :: U.map (·.2)) s.out none) := by
    have hgr := h.gr
    rw [hS, hc, nil_pd] at hgr
    obtain ⟨x, q, hp⟩ := ent_path hg.web (e := (y, t)) htS e10
    have hv : vrt s.H t = false := e10.1
    rcases h.old (y, t) (by simp) with a | ⟨hft, _, _, b, q', a2, a3⟩
    · obtain ⟨x', a1, a2⟩ := a
      dsimp only at a1 hp
      rw [hp] at a1; simp at a1
      obtain ⟨H', p1, p2, p3, p4, p5, p6, _⟩ := g_push hg htS (c := X) hp (by rw [hv]; simp) (by omega)
      exact ⟨H', p1, p2, p3, by rw [p5, hv]; rfl, ⟨y, x :: q, p4, le_refl _⟩, p6,
        fun hf => gr_pushX hg (hgr hf) h.out (fun _ hh => absurd hh (by simp)) htS hp hv (by omega) p1 p3 (mx_start y)⟩
    · obtain ⟨H', p1, p2, p3, p4, p5, p6, _⟩ := g_pop hg htS (l := y) (b := b) (r := q') a2 hv
      exact ⟨H', p1, p2, p3, p5, ⟨b, q', p4, by dsimp only at a3; omega⟩, p6, fun hf => by rw [hft] at hf; simp at hf⟩
  obtain ⟨H', p1, p2, p3, p4, p5, p6, p7⟩ := hpush
  refine ⟨{ s with H := H', cur := some t, nm := mnext s.map y, map := merase s.map y }, ?_, ?_⟩
  · unfold bottomEnd; rw [e2]; dsimp only; rw [hc]; dsimp only; rw [p1]; rfl
  · have hnear : ∀ e ∈ D ++ U, Near s.H H' e.2 := fun e he => by
      refine p6 e.2 ?_ (hnt e he)
      rcases List.mem_append.1 he with a | a
      · exact List.mem_append_left _ (List.mem_map.2 ⟨e, a, rfl⟩)
      · exact List.mem_append_right _ (List.mem_cons_of_mem _ (List.mem_map.2 ⟨e, a, rfl⟩))
    constructor
    · exact e4
    · exact e6
    · intro e he; have := h.hD e he; omega
    · exact e5
    · rfl
    · exact p2
    · intro e he; exact ent_near (e8 e he) (hnear e he)
    · intro e he; exact old_near (e9 e he) (hnear e (by simp [he]))
    · exact p4
    · exact p5
    · exact h.hfp
    · exact e7
    · dsimp only; rw [e3]; exact nm_head U (srt_append.1 e6).2.1
    · exact h.out
    · have ht := h.tot
      rw [hS, hc] at ht
      have : pd fr none = none := by unfold pd; split_ifs <;> rfl
      rw [this] at ht
      exact out_op hg p3 base.c h.out ht
    · exact p7

/-- Found, with a closed hole to place. -/
theorem bottom_found_hole {t c : Nat} (h : Pre false X fm fp base y D ((y, t) :: U) Z s) (hc : s.cur = some c) :
    ∃ s', bottomEnd false X y s = some s' ∧ Mid false X fm fp base y D U t Z s' := by
  obtain ⟨e1, e2, e3, e4, e5, e6, e7, e8, e9, e10⟩ := pre_take h
  have hg := h.g
  have hS : D.map (·.2) ++ cl false s.H s.cur ++ ((y, t) :: U).map (·.2) = D.map (·.2) ++ t :: U.map (·.2) := by rw [hc]; simp [cl]
  rw [hS] at hg
  have htS : t ∈ D.map (·.2) ++ t :: U.map (·.2) := by simp
  obtain ⟨⟨hz, hout⟩, hodd, hpe⟩ := by simpa only [Bool.false_eq_true, if_false] using h.pend c hc
  have hgp : gp (ps (D.map (·.2) ++ t :: U.map (·.2)) t) = D.length - 1 := by
    rw [ps_at hg.web.nodup, List.length_map]; unfold gp; omega
  obtain ⟨H1, a1, a2, a3, a4, a5, a6, a7, a8⟩ := g_addHole hg htS hz (out := s.out) (fun n hn => ⟨h.out n hn, hout n hn⟩)
    (fun i j hi => by rw [hgp]; exact hpe i j hi)
  have ht := h.tot
  rw [hS, hc] at ht
  have ht1 : ∀ i j, i < X → tot H1 (D.map (·.2) ++ t :: U.map (·.2)) s.out none i j = base.c i j ∧ ∀ n ∈ s.out, 0 ≤ ov H1 i j n := fun i j hi => by
    obtain ⟨h1, h2⟩ := a8 i j
    exact ⟨by rw [h1]; exact (ht i j hi).1, fun n hn => by rw [h2 n hn]; exact (ht i j hi).2 n hn⟩
  -- as if nothing had been pending
  have hpre : Pre false X fm fp base y D ((y, t) :: U) Z { s with H := H1, cur := none } := by
    constructor
    · exact h.map
    · exact h.srt
    · exact h.hD
    · exact h.hU
    · have e : D.map (·.2) ++ cl false H1 none ++ ((y, t) :: U).map (·.2) = D.map (·.2) ++ t :: U.map (·.2) := by simp [cl]
      dsimp only; rw [e]; exact a2
    · intro e he; exact ent_near (h.ent e he) (a3 e.2)
    · intro e he
      rcases h.old e he with a | ⟨_, a, _⟩
      · exact Or.inl (old_near a (a3 e.2))
      · rw [hc] at a; simp at a
    · intro c' hc'; simp at hc'
    · exact h.hfp
    · exact h.hfm
    · exact h.nm
    · exact h.out
    · have e : D.map (·.2) ++ cl false H1 none ++ ((y, t) :: U).map (·.2) = D.map (·.2) ++ t :: U.map (·.2) := by simp [cl]
      dsimp only; rw [e]; exact ht1
    · intro _
      have e : D.map (·.2) ++ cl false H1 none ++ ((y, t) :: U).map (·.2) = D.map (·.2) ++ t :: U.map (·.2) := by simp [cl]
      dsimp only; rw [e]
      have hgr := h.gr rfl
      rw [hS, hc] at hgr
      exact gr_addHole hg hgr htS hz (fun n hn => ⟨h.out n hn, hout n hn⟩) a1
  obtain ⟨s', b1, b2⟩ := bottom_found hpre rfl
  refine ⟨s', ?_, b2⟩
  rw [← b1]
  unfold bottomEnd
  dsimp only
  rw [e2]; dsimp only; rw [hc]; dsimp only; rw [a1]; rfl

theorem nd_ne {D U : List (Int × Nat)} {c : Nat} (nd : (D.map (·.2) ++ c :: U.map (·.2)).Nodup) : ∀ e ∈ D ++ U, e.2 ≠ c := by
  intro e he hh
  have := List.nodup_append.1 nd
  rcases List.mem_append.1 he with a | a
  · exact this.2.2 e.2 (List.mem_map.2 ⟨e, a, rfl⟩) c (by simp) hh
  · have h2 := List.nodup_cons.1 this.2.1
    exact h2.1 (List.mem_map.2 ⟨e, a, hh⟩)

/-- Found, with a hole to cut open. -/
theorem bottom_found_cut {t c : Nat} (h : Pre true X fm fp base y D ((y, t) :: U) Z s) (hc : s.cur = some c) :
    ∃ s', bottomEnd true X y s = some s' ∧ Mid true X fm fp base y D U c Z s' := by
  obtain ⟨e1, e2, e3, e4, e5, e6, e7, e8, e9, e10⟩ := pre_take h
  have hg := h.g
  have hS : D.map (·.2) ++ cl true s.H s.cur ++ ((y, t) :: U).map (·.2) = (D.map (·.2) ++ [c]) ++ oth s.H c :: t :: U.map (·.2) := by rw [hc]; simp [cl]
  rw [hS] at hg
  have hpc := h.pend c hc
  rw [if_pos rfl] at hpc
  obtain ⟨q1, ⟨b, q, q2, q3⟩, q4, z, x, q', q5, q6, q7⟩ := hpc
  set w := oth s.H c with hw
  have hwS : w ∈ (D.map (·.2) ++ [c]) ++ w :: t :: U.map (·.2) := by simp
  have hcS : c ∈ (D.map (·.2) ++ [c]) ++ w :: t :: U.map (·.2) := by simp
  have htS : t ∈ (D.map (·.2) ++ [c]) ++ w :: t :: U.map (·.2) := by simp
  have hoc : oth s.H w = c := hg.web.oo c hcS
  have htw : t ≠ w := by
    intro e; have := ps_adj hg.web.nodup; rw [e] at this; omega
  have htc : t ≠ c := by
    intro e
    have nd := List.nodup_append.1 hg.web.nodup
    exact nd.2.2 c (by simp) t (by simp) e.symm
  have hcw : c ≠ w := fun e => hg.web.one c hcS e.symm
  -- the hole is prolonged to the column
  obtain ⟨H1, p1, p2, p3, p4, p5, p6, p7, p8, p9⟩ := g_push hg hwS (c := X) q6 (by rw [q4]; simp) (by omega)
  rw [q4] at p5
  have near1c := p6 c hcS hcw
  have near1t := p6 t htS htw
  have ent1 : Ent H1 (y, t) := ent_near e10 near1t
  have old1 : Old X H1 t := by
    rcases h.old (y, t) (by simp) with a | ⟨_, a, _⟩
    · exact old_near a near1t
    · rw [hc] at a; simp at a
  -- and joined to the end found
  have hne : oth H1 w ≠ t := by rw [p7, hoc]; exact htc.symm
  have hj : Joint X H1 w t := by
    obtain ⟨x', o1, o2⟩ := old1
    refine ⟨by rw [p5, ent1.1]; rfl, by rw [p5]; simp [p4], fun a b' ha hb => ?_, fun a b' ha hb => ?_⟩
    · rw [p4] at ha; simp at ha
      have : (pth H1 t).head? = some y := ent1.2
      rw [this] at hb; simp at hb; omega
    · rw [p4] at ha; simp at ha
      rw [o1] at hb; simp at hb; omega
  obtain ⟨H2, j1, j2, j3, j4, j5⟩ := g_join' p2 hne hj false
  have op := p3.trans j3
  have hS2 : D.map (·.2) ++ [c] ++ U.map (·.2) = D.map (·.2) ++ c :: U.map (·.2) := by simp
  rw [hS2] at j2 j4 op
  refine ⟨{ s with H := H2, cur := some c, nm := mnext s.map y, map := merase s.map y }, ?_, ?_⟩
  · unfold bottomEnd; rw [e2]; dsimp only; rw [hc]; dsimp only
    have : s.H.addHole t c true = some (H2, c) := by
      unfold Heap.addHole
      have hv' : (s.H.tail (s.H.tail c).other).vert = false := q4
      have hh : (s.H.tail c).path.head? = some X := by
        change (pth s.H c).head? = _; rw [q2]; rfl
      have p1' : s.H.push (s.H.tail c).other X = some H1 := p1
      have j1' : H1.joinChains t (s.H.tail c).other false = (H2, [], none) := j1
      simp only [Bool.not_true, Bool.false_eq_true, if_false, hv', hh, Option.bind_eq_bind, Option.bind_some, p1', j1']
    rw [this]; rfl
  · have hnear : ∀ n ∈ D.map (·.2) ++ c :: U.map (·.2), Near s.H H2 n := fun n hn => by
      have hn' : n ∈ (D.map (·.2) ++ [c]) ++ w :: t :: U.map (·.2) := by
        simp only [List.mem_append, List.mem_cons, List.not_mem_nil, or_false] at hn ⊢; tauto
      have hnw : n ≠ w := by
        have := (mem_mid (a := n) hg.web.nodup).1 (by rw [hS2]; exact hn)
        exact this.2.1
      exact (p6 n hn' hnw).trans (j4 n hn)
    have hmem : ∀ e ∈ D ++ U, e.2 ∈ D.map (·.2) ++ c :: U.map (·.2) := fun e he => by
      rcases List.mem_append.1 he with a | a
      · exact List.mem_append_left _ (List.mem_map.2 ⟨e, a, rfl⟩)
      · exact List.mem_append_right _ (List.mem_cons_of_mem _ (List.mem_map.2 ⟨e, a, rfl⟩))
    have hcn := hnear c (by simp)
    constructor
    · exact e4
    · exact e6
    · intro e he; have := h.hD e he; omega
    · exact e5
    · rfl
    · exact j2
    · intro e he; exact ent_near (e8 e he) (hnear _ (hmem e he))
    · intro e he; exact old_near (e9 e he) (hnear _ (hmem e (by simp [he])))
    · exact hcn.1.trans q1
    · have := take2 hcn.2
      rw [q2] at this
      match hh : pth H2 c with
      | [] => rw [hh] at this; simp at this
      | [_] => rw [hh] at this; simp at this
      | a :: b' :: r => rw [hh] at this; simp at this; exact ⟨b', r, by rw [this.1], by omega⟩
    · exact h.hfp
    · exact e7
    · dsimp only; rw [e3]; exact nm_head U (srt_append.1 e6).2.1
    · exact h.out
    · have ht := h.tot
      rw [hS] at ht
      have : pd true s.cur = none := rfl
      rw [this] at ht
      exact out_op hg op base.c h.out ht
    · intro hf; simp at hf

theorem pre_miss (h : Pre fr X fm fp base y D U Z s) (hU : ∀ e ∈ U, y < e.1) (v : Nat) :
    findAtNext s.map s.nm y = none ∧ minsert y v s.map = D ++ (y, v) :: U ∧ Srt (D ++ [(y, v)] ++ U) ∧ (∀ e ∈ D ++ [(y, v)], e.1 ≤ y) ∧
    (∀ e ∈ U, Old X s.H e.2) ∧ (∀ j, j < y → fp j = cnt (D ++ [(y, v)]) j % 2) ∧
    (∀ j, y ≤ j → fm j = ((D ++ [(y, v)]).length + 1 + cnt U j) % 2) := by
  refine ⟨?_, ?_, ?_, ?_, ?_, ?_, ?_⟩
  · rw [pre_find h]
    refine find_none (fun e he => ?_)
    rcases List.mem_append.1 he with a | a
    · have := h.hD e a; omega
    · have := hU e a; omega
  · rw [h.map]; exact insert_mid y v h.hD hU
  · rw [List.append_assoc]; exact srt_mid v h.srt h.hD hU
  · intro e he
    rcases List.mem_append.1 he with a | a
    · have := h.hD e a; omega
    · rw [List.mem_singleton.1 a]
  · intro e he
    rcases h.old e he with a | ⟨_, _, a, _⟩
    · exact a
    · have := hU e he; omega
  · intro j hj
    rw [h.hfp j hj, cnt_append, cnt_none (L := [(y, v)]) (fun e he => by rw [List.mem_singleton.1 he]; exact hj), Int.add_zero]
  · intro j hj
    rw [h.hfm j hj, List.length_append]; simp only [List.length_singleton]; push_cast; omega

/-- Nothing found, nothing pending. -/
theorem bottom_new (h : Pre fr X fm fp base y D U Z s) (hU : ∀ e ∈ U, y < e.1) (hc : s.cur = none) :
    ∃ s', bottomEnd fr X y s = some s' ∧ Mid fr X fm fp base y (D ++ [(y, s.H.fresh + 1)]) U s.H.fresh Z s' := by
  obtain ⟨e1, e2, e3, e4, e5, e6, e7⟩ := pre_miss h hU (s.H.fresh + 1)
  have hg := h.g
  have hS : D.map (·.2) ++ cl fr s.H s.cur ++ U.map (·.2) = D.map (·.2) ++ U.map (·.2) := by rw [hc]; simp [cl]
  rw [hS] at hg
  obtain ⟨n1, n2, n3, n4, n5, n6⟩ := g_new (y := y) hg
  have hS2 : (D ++ [(y, s.H.fresh + 1)]).map (·.2) ++ s.H.fresh :: U.map (·.2) = D.map (·.2) ++ (s.H.fresh + 1) :: s.H.fresh :: U.map (·.2) := by simp
  have hmem : ∀ e ∈ D ++ U, e.2 ∈ D.map (·.2) ++ U.map (·.2) := fun e he => by
    rw [← List.map_append]; exact List.mem_map.2 ⟨e, he, rfl⟩
  refine ⟨{ s with H := (s.H.newPair X y).1, cur := some s.H.fresh, map := minsert y (s.H.fresh + 1) s.map }, ?_, ?_⟩
  · unfold bottomEnd; rw [e1, hc]; rfl
  · constructor
    · rw [List.append_assoc]; exact e2
    · exact e3
    · exact e4
    · exact hU
    · rfl
    · rw [hS2]; exact n1
    · intro e he
      rw [List.append_assoc] at he
      rcases List.mem_append.1 he with a | a
      · exact ent_near (h.ent e (by simp [a])) (n3 _ (hmem e (by simp [a])))
      · rcases List.mem_append.1 a with a | a
        · rw [List.mem_singleton.1 a]
          unfold Ent vrt pth; dsimp only; rw [n5]; exact ⟨rfl, rfl⟩
        · exact ent_near (h.ent e (by simp [a])) (n3 _ (hmem e (by simp [a])))
    · intro e he; exact old_near (e5 e he) (n3 _ (hmem e (by simp [he])))
    · unfold vrt; dsimp only; rw [n4]
    · refine ⟨y, [], ?_, le_refl _⟩
      unfold pth; dsimp only; rw [n4]
    · exact e6
    · exact e7
    · exact h.nm
    · exact h.out
    · rw [hS2]
      have ht := h.tot
      rw [hS, hc, nil_pd] at ht
      exact out_op hg n2 base.c h.out ht
    · intro hf
      have hgr := h.gr hf
      rw [hS, hc, nil_pd] at hgr
      rw [hS2]
      exact gr_new hg hgr h.out (fun _ hh => absurd hh (by simp)) n2 (mx_start y)

/-- Nothing found, with a closed hole to place. -/
theorem bottom_new_hole {c : Nat} (h : Pre false X fm fp base y D U Z s) (hU : ∀ e ∈ U, y < e.1) (hc : s.cur = some c) :
    ∃ s', bottomEnd false X y s = some s' ∧ Mid false X fm fp base y (D ++ [(y, s.H.fresh + 1)]) U s.H.fresh Z s' := by
  obtain ⟨e1, e2, e3, e4, e5, e6, e7⟩ := pre_miss h hU (s.H.fresh + 1)
  have hg := h.g
  have hS : D.map (·.2) ++ cl false s.H s.cur ++ U.map (·.2) = D.map (·.2) ++ U.map (·.2) := by rw [hc]; simp [cl]
  rw [hS] at hg
  obtain ⟨⟨hz, hout⟩, hodd, hpe⟩ := by simpa only [Bool.false_eq_true, if_false] using h.pend c hc
  obtain ⟨n1, n2, n3, n4, n5, n6⟩ := g_new (y := y) hg
  have hoc : oth (s.H.newPair X y).1 c = oth s.H c := by
    have := hg.z.zf c hz
    unfold oth; rw [n6 c (by omega) (by omega)]
  obtain ⟨H1, a1, a2, a3, a4, a5, a6, a7, a8⟩ := g_addHole (t := s.H.fresh) n1 (by simp) hz (out := s.out) (fun n hn => ⟨h.out n hn, by rw [hoc]; exact hout n hn⟩)
    (fun i j hi => by
      have hgp : gp (ps (D.map (·.2) ++ (s.H.fresh + 1) :: s.H.fresh :: U.map (·.2)) s.H.fresh) = D.length + 1 := by
        have := ps_adj n1.web.nodup
        rw [this.2, List.length_map]; unfold gp; omega
      rw [hgp]
      exact pend_new hg hz (Or.inr ⟨by rw [List.length_map], by omega⟩) (hpe i j hi))
  have hS2 : (D ++ [(y, s.H.fresh + 1)]).map (·.2) ++ s.H.fresh :: U.map (·.2) = D.map (·.2) ++ (s.H.fresh + 1) :: s.H.fresh :: U.map (·.2) := by simp
  have hmem : ∀ e ∈ D ++ U, e.2 ∈ D.map (·.2) ++ U.map (·.2) := fun e he => by
    rw [← List.map_append]; exact List.mem_map.2 ⟨e, he, rfl⟩
  refine ⟨{ s with H := H1, cur := some s.H.fresh, map := minsert y (s.H.fresh + 1) s.map }, ?_, ?_⟩
  · unfold bottomEnd; rw [e1, hc]; dsimp only
    unfold Heap.createPair
    simp only [Bool.not_false, if_true]
    have : (s.H.newPair X y) = ((s.H.newPair X y).1, s.H.fresh, s.H.fresh + 1) := rfl
    rw [this]; dsimp only
    rw [a1]; rfl
  · constructor
    · rw [List.append_assoc]; exact e2
    · exact e3
    · exact e4
    · exact hU
    · rfl
    · rw [hS2]; exact a2
    · intro e he
      rw [List.append_assoc] at he
      rcases List.mem_append.1 he with a | a
      · exact ent_near (ent_near (h.ent e (by simp [a])) (n3 _ (hmem e (by simp [a])))) (a3 _)
      · rcases List.mem_append.1 a with a | a
        · rw [List.mem_singleton.1 a]
          refine ent_near ?_ (a3 _)
          unfold Ent vrt pth; dsimp only; rw [n5]; exact ⟨rfl, rfl⟩
        · exact ent_near (ent_near (h.ent e (by simp [a])) (n3 _ (hmem e (by simp [a])))) (a3 _)
    · intro e he; exact old_near (old_near (e5 e he) (n3 _ (hmem e (by simp [he])))) (a3 _)
    · dsimp only; rw [a6]; unfold vrt; rw [n4]
    · refine ⟨y, [], ?_, le_refl _⟩
      dsimp only; rw [a4]; unfold pth; rw [n4]
    · exact e6
    · exact e7
    · exact h.nm
    · exact h.out
    · rw [hS2]
      have ht := h.tot
      rw [hS, hc] at ht
      intro i j hi
      dsimp only
      obtain ⟨h1, h2⟩ := a8 i j
      obtain ⟨h3, h4⟩ := tot_op hg n2 h.out (pd := some c) (fun c' hc' => by simp at hc'; exact hc' ▸ hz) hi (j := j)
      exact ⟨by rw [h1, h3]; exact (ht i j hi).1, fun n hn => by rw [h2 n hn, h4 n hn]; exact (ht i j hi).2 n hn⟩
    · intro _
      have hgr := h.gr rfl
      rw [hS, hc] at hgr
      rw [hS2]
      refine gr_addHole n1 (gr_new hg hgr h.out (fun c' hc' => by simp [pd] at hc'; exact hc' ▸ hz) n2 (mx_start y)) (by simp) hz (fun n hn => ⟨h.out n hn, ?_⟩) a1
      rw [hoc]; exact hout n hn

/-- Nothing found, with a hole to cut open. -/
theorem bottom_new_cut {c : Nat} (h : Pre true X fm fp base y D U Z s) (hU : ∀ e ∈ U, y < e.1) (hc : s.cur = some c) :
    ∃ s', bottomEnd true X y s = some s' ∧ Mid true X fm fp base y (D ++ [(y, c)]) U (oth s.H c) Z s' := by
  obtain ⟨e1, e2, e3, e4, e5, e6, e7⟩ := pre_miss h hU c
  have hg := h.g
  have hS : D.map (·.2) ++ cl true s.H s.cur ++ U.map (·.2) = (D ++ [(y, c)]).map (·.2) ++ oth s.H c :: U.map (·.2) := by rw [hc]; simp [cl]
  rw [hS] at hg
  have hpc := h.pend c hc
  rw [if_pos rfl] at hpc
  obtain ⟨q1, ⟨b, q, q2, q3⟩, q4, z, x, q', q5, q6, q7⟩ := hpc
  set w := oth s.H c with hw
  have hwS : w ∈ (D ++ [(y, c)]).map (·.2) ++ w :: U.map (·.2) := by simp
  have hcS : c ∈ (D ++ [(y, c)]).map (·.2) ++ w :: U.map (·.2) := by simp
  have hoc : oth s.H w = c := hg.web.oo c hcS
  have hcw : c ≠ w := fun e => hg.web.one c hcS e.symm
  obtain ⟨H1, p1, p2, p3, p4, p5, p6, p7, p8, p9⟩ := g_push hg hwS (c := X) q6 (by rw [q4]; simp) (by omega)
  have near1 := p6 c hcS hcw
  have hv1 : vrt H1 c = true := near1.1.trans q1
  obtain ⟨b', r', hp1⟩ : ∃ r' r'', pth H1 c = X :: b :: r'' ∧ r' = b := by
    have := take2 near1.2
    rw [q2] at this
    match hh : pth H1 c with
    | [] => rw [hh] at this; simp at this
    | [_] => rw [hh] at this; simp at this
    | a :: b' :: r => rw [hh] at this; simp at this; exact ⟨b, r, by rw [this.1, this.2], rfl⟩
  obtain ⟨H2, r1, r2, r3, r4, r5, r6, r7, r8, r9⟩ := g_push p2 hcS (c := y) hp1.1 (by rw [hv1]; simp) (by omega)
  rw [hv1] at r5
  have near2 := r6 w hwS hcw.symm
  refine ⟨{ s with H := H2, cur := some w, map := minsert y c s.map }, ?_, ?_⟩
  · unfold bottomEnd; rw [e1, hc]; dsimp only
    unfold Heap.createPair
    have hv' : (s.H.tail c).vert = true := q1
    have p1' : s.H.push (s.H.tail c).other X = some H1 := p1
    simp only [Bool.not_true, Bool.false_eq_true, if_false, hv', if_true, Option.bind_eq_bind, p1', Option.bind_some, r1]
    rfl
  · have hne : ∀ e ∈ D ++ U, e.2 ≠ c ∧ e.2 ≠ w ∧ e.2 ∈ (D ++ [(y, c)]).map (·.2) ++ w :: U.map (·.2) := by
      intro e he
      have nd := hg.web.nodup
      have hE : (D ++ [(y, c)]).map (·.2) ++ w :: U.map (·.2) = D.map (·.2) ++ c :: w :: U.map (·.2) := by simp
      rw [hE] at nd ⊢
      have := (mem_mid (a := e.2) nd).1 (by rw [← List.map_append]; exact List.mem_map.2 ⟨e, he, rfl⟩)
      exact ⟨this.2.1, this.2.2, this.1⟩
    have hnear : ∀ e ∈ D ++ U, Near s.H H2 e.2 := fun e he => by
      obtain ⟨a, b, c⟩ := hne e he
      exact (p6 _ c b).trans (r6 _ c a)
    constructor
    · rw [List.append_assoc]; exact e2
    · exact e3
    · exact e4
    · exact hU
    · rfl
    · exact r2
    · intro e he
      rw [List.append_assoc] at he
      rcases List.mem_append.1 he with a | a
      · exact ent_near (h.ent e (by simp [a])) (hnear e (by simp [a]))
      · rcases List.mem_append.1 a with a | a
        · rw [List.mem_singleton.1 a]
          exact ⟨r5, by dsimp only; rw [r4]; rfl⟩
        · exact ent_near (h.ent e (by simp [a])) (hnear e (by simp [a]))
    · intro e he; exact old_near (e5 e he) (hnear e (by simp [he]))
    · dsimp only; rw [near2.1, p5, q4]; rfl
    · have := take2 near2.2
      rw [p4] at this
      dsimp only
      match hh : pth H2 w with
      | [] => rw [hh] at this; simp at this
      | [_] => rw [hh] at this; simp at this
      | a :: b' :: r => rw [hh] at this; simp at this; exact ⟨b', r, by rw [this.1], by omega⟩
    · exact e6
    · exact e7
    · exact h.nm
    · exact h.out
    · have ht := h.tot
      rw [hS] at ht
      have : pd true s.cur = none := rfl
      rw [this] at ht
      exact out_op hg (p3.trans r3) base.c h.out ht
    · intro hf; simp at hf

/-- The bottom end of an edge. -/
theorem bottom_spec (h : Pre fr X fm fp base y D U Z s) : ∃ D' U' c s', bottomEnd fr X y s = some s' ∧ Mid fr X fm fp base y D' U' c Z s' := by
  by_cases hU : ∀ e ∈ U, y < e.1
  · cases hc : s.cur with
    | none => obtain ⟨s', a, b⟩ := bottom_new h hU hc; exact ⟨_, _, _, s', a, b⟩
    | some c =>
      cases fr with
      | false => obtain ⟨s', a, b⟩ := bottom_new_hole h hU hc; exact ⟨_, _, _, s', a, b⟩
      | true => obtain ⟨s', a, b⟩ := bottom_new_cut h hU hc; exact ⟨_, _, _, s', a, b⟩
  · obtain ⟨t, U', rfl⟩ : ∃ t U', U = (y, t) :: U' := by
      push Not at hU
      obtain ⟨e, he, hle⟩ := hU
      cases U with
      | nil => simp at he
      | cons a U' =>
        have h1 := h.hU a (by simp)
        have hs := List.pairwise_cons.1 (srt_append.1 h.srt).2.1
        have : a.1 = y := by
          rcases List.mem_cons.1 he with rfl | he'
          · omega
          · have := hs.1 e he'; omega
        exact ⟨a.2, U', by rw [← this]⟩
    cases hc : s.cur with
    | none => obtain ⟨s', a, b⟩ := bottom_found h hc; exact ⟨_, _, _, s', a, b⟩
    | some c =>
      cases fr with
      | false => obtain ⟨s', a, b⟩ := bottom_found_hole h hc; exact ⟨_, _, _, s', a, b⟩
      | true => obtain ⟨s', a, b⟩ := bottom_found_cut h hc; exact ⟨_, _, _, s', a, b⟩

end Verif.Proofs.PolyBottom
