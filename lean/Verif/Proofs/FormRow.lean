import Verif.Proofs.FormOrd
import Verif.Proofs.FormAfter
/-!
# The open ends along the scanline, from bottom to top, point by point
-/
namespace Verif.ArbForm
open Verif.Arb Verif.Contains Verif.Spec Verif.Spec.Arb

/-! ### Colours -/

theorem Colors.split {α : Type} {s : α → Int} : ∀ {L M : List α} {t b : Int}, Colors s t (L ++ M) b → ∃ m, Colors s t L m ∧ Colors s m M b
  | [], M, t, b, h => by
    cases M with
    | nil => exact ⟨b, h, ⟨rfl, by obtain ⟨h1, h2⟩ := h; omega⟩⟩
    | cons a r => exact ⟨t, ⟨rfl, h.1⟩, h⟩
  | a :: L, M, t, b, h => by
    obtain ⟨h1, h2, h3⟩ := h
    obtain ⟨m, g1, g2⟩ := Colors.split h3
    exact ⟨m, ⟨h1, h2, g1⟩, g2⟩

theorem Colors.sum {α : Type} {s : α → Int} : ∀ {L : List α} {t b : Int}, Colors s t L b → b = t - (L.map s).sum
  | [], t, b, h => by have := h.1; simp; omega
  | a :: L, t, b, h => by
    have := Colors.sum h.2.2
    rw [List.map_cons, List.sum_cons]; omega

theorem Colors.par {α : Type} {s : α → Int} : ∀ {L : List α} {t b : Int}, Colors s t L b → (t - b + L.length) % 2 = 0
  | [], t, b, h => by have := h.1; simp; omega
  | a :: L, t, b, h => by
    obtain ⟨h1, h2, h3⟩ := h
    have h4 := (Colors.bounds h3).1
    have := Colors.par h3
    rw [List.length_cons]; push_cast; omega

theorem Col.sum {D : List V} {x : Int} {sd : List (V × Nat)} (hc : Col D x sd) (P : HE → Prop) [DecidablePred P] :
    S (evs D) 0 (fun e => LSpan x e ∧ P e) = (sd.map (fun a => if P a.1.1 then a.1.2 else 0)).sum := by
  have h0 : S (evs D) 0 (fun e => LSpan x e ∧ P e) = (D.map (fun e => if LSpan x e.1 ∧ P e.1 then e.2 else 0)).sum := by
    rw [S_sum]
    congr 1
    apply List.map_congr_left
    intro e _
    congr
  have h1 : ∀ D : List V, (D.map (fun e => if LSpan x e.1 ∧ P e.1 then e.2 else 0)).sum = ((D.filter (fun e => decide (LSpan x e.1))).map (fun e => if P e.1 then e.2 else 0)).sum := by
    intro D
    induction D with
    | nil => rfl
    | cons e D ih =>
      rw [List.map_cons, List.sum_cons, ih]
      by_cases h : LSpan x e.1
      · rw [List.filter_cons_of_pos (by simpa using h), List.map_cons, List.sum_cons]
        by_cases g : P e.1 <;> simp [h, g]
      · rw [List.filter_cons_of_neg (by simpa using h)]; simp [h]
  have h2 := (hc.keys.map (fun e : V => if P e.1 then e.2 else 0)).sum_eq
  rw [List.map_map] at h2
  rw [h0, h1]
  exact h2.symm

theorem above_sum {D : List V} (c : Clean D) {x : Int} {sd A B C : List (V × Nat)} (hc : Col D x sd) {p : Pt} (hv : Vertex (evs D) p) (hx : p.1 = x) (hs : sd = A ++ (B ++ C))
    (hA : ∀ a ∈ A, Y a.1.1 p.1 < p.2) (hB : ∀ a ∈ B, a.1.1.2 = p) (hC : ∀ a ∈ C, (p.2 : ℚ) < Y a.1.1 p.1) : (C.map (fun a : V × Nat => a.1.2)).sum = - tt D p := by
  have h0 : S (evs D) 0 (LSpan x) = S (evs D) 0 (fun e => LSpan x e ∧ True) := S_congr (fun _ _ => by simp)
  rw [total_zero c.good, hc.sum] at h0
  have h1 : tt D p = S (evs D) 0 (fun e => LSpan x e ∧ Y e x ≤ p.2) := by rw [← hx]
  rw [hc.sum] at h1
  subst hx
  have hA' : A.map (fun a : V × Nat => if Y a.1.1 p.1 ≤ p.2 then a.1.2 else 0) = A.map (fun a => a.1.2) :=
    List.map_congr_left (fun a ha => if_pos (hA a ha).le)
  have hB' : B.map (fun a : V × Nat => if Y a.1.1 p.1 ≤ p.2 then a.1.2 else 0) = B.map (fun a => a.1.2) :=
    List.map_congr_left (fun a ha => by
      have hm : a ∈ sd := by rw [hs]; simp [ha]
      exact if_pos ((end_at c.good hv (Has.evs (hc.mem hm).1) (hc.mem hm).2).2 (hB a ha)).le)
  have hC' : C.map (fun a : V × Nat => if Y a.1.1 p.1 ≤ p.2 then a.1.2 else 0) = C.map (fun _ => (0 : Int)) :=
    List.map_congr_left (fun a ha => if_neg (not_le.2 (hC a ha)))
  rw [hs] at h0 h1
  simp only [if_true, List.map_append, List.sum_append] at h0 h1
  rw [hA', hB', hC'] at h1
  simp only [List.map_const', List.sum_replicate, smul_zero] at h1
  omega

/-! ### Order -/

theorem cross_vert {E : List Ev} (hG : Good E) {x : Int} {e f : HE} (he : Has E e) (hf : Has E f) (h1 : e.1.1 = x) (h2 : e.2.1 = x) (sf : LSpan x f)
    (h3 : (e.1.2 : ℚ) < Y f x) (h4 : Y f x < e.2.2) : False := by
  have hne : e ≠ f := by rintro rfl; have := sf.1; omega
  have hp : (0 : ℚ) < (e.2.2 : ℚ) - e.1.2 := by linarith
  have q1 : (f.1.1 : ℚ) ≤ x := by exact_mod_cast sf.1.le
  have q2 : (x : ℚ) ≤ f.2.1 := by exact_mod_cast sf.2
  have := hG.planar e he f hf hne ((x : ℚ), Y f x) ⟨(Y f x - e.1.2) / (e.2.2 - e.1.2), div_nonneg (by linarith) hp.le,
    by rw [div_le_one hp]; linarith, by dsimp only; rw [h1, h2]; ring, by dsimp only; field_simp; ring⟩ ((onEdge_iff sf.nv _).2 ⟨q1, q2, rfl⟩)
  rcases this.1 with h | h
  · have := h.2; dsimp only at this; linarith
  · have := h.2; dsimp only at this; linarith

theorem lt_at {E : List Ev} (hG : Good E) {x : Int} {e f : HE} (he : Has E e) (hf : Has E f) (se : RSpan x e) (sf : RSpan x f) (h : Y e x < Y f x) : Lt e f := by
  have hne : e ≠ f := by rintro rfl; exact _root_.lt_irrefl _ h
  exact lt_of (hG.sep he hf hne se.nv sf.nv) se.nv sf.nv (lt_of_le_of_lt se.1 sf.2) (lt_of_le_of_lt sf.1 se.2) (by exact_mod_cast se.1) (by exact_mod_cast se.2.le)
    (by exact_mod_cast sf.1) (by exact_mod_cast sf.2.le) h

theorem lt_no {E : List Ev} (hG : Good E) {e f : HE} (he : Has E e) (hf : Has E f) (h1 : NV e) (h2 : NV f) (h : Lt e f) (h' : Lt f e) : False :=
  Arb.lt_asymm (hG.sep he hf (lt_ne h) h1 h2) h h'

/-- Lists in the order of the scanline with the same members are equal. -/
theorem srt_eq {E : List Ev} (hG : Good E) {L M : List (V × Nat)} (hL : L.Pairwise (fun a b => Lt a.1.1 b.1.1)) (hM : M.Pairwise (fun a b => Lt a.1.1 b.1.1))
    (hp : L.Perm M) (hm : ∀ a ∈ L, Has E a.1.1 ∧ NV a.1.1) : L = M := by
  refine List.Perm.eq_of_pairwise ?_ hL hM hp
  intro a b ha hb h1 h2
  have hb' := hm b (hp.mem_iff.2 hb)
  exact (lt_no hG (hm a ha).1 hb'.1 (hm a ha).2 hb'.2 h1 h2).elim

/-- The ends from bottom to top in the middle of a column: `lo` new, `hi` those of the old scanline above the points done. -/
structure Ord (ω : Edge → Int) (D : List V) (x : Int) (sd : List (V × Nat)) (dn : Pt → Bool) (s : ES) (F : Option Nat) (W : Option (V × Nat))
    (lo hi sd0 : List (V × Nat)) : Prop where
  split : sd = sd0 ++ hi
  perm : (lo ++ hi).Perm (sd.filter (fun a => !dn a.1.1.2) ++ s.els)
  srt : lo.Pairwise (fun a b => Lt a.1.1 b.1.1)
  low : ∀ a ∈ lo, Has (evs D) a.1.1 ∧ RSpan x a.1.1 ∧ ∃ v, Vertex (evs D) v ∧ v.1 = x ∧ dn v = true ∧ Y a.1.1 x ≤ v.2
  high : ∀ a ∈ hi, ∀ v, Vertex (evs D) v → v.1 = x → dn v = true → (v.2 : ℚ) < Y a.1.1 x
  old : ∀ a ∈ sd0, ∃ v, Vertex (evs D) v ∧ v.1 = x ∧ dn v = true ∧ Y a.1.1 x ≤ v.2
  fl : F ≠ none → ∃ ev r, s.evs = ev :: r ∧ ∀ b ∈ hi, (ev.1.1.2 : ℚ) < Y b.1.1 x
  col : Colors (fun a : V × Nat => a.1.2) 0 (lo ++ (W.toList ++ hi)).reverse 0
  fit : Fit ω s.H (lo ++ (W.toList ++ hi)) F lo.length
  good : ∀ P ∈ s.out, GoodP ω P

theorem After.permA {p : Pt} {from_ : List (V × Nat)} {inc : List (Pt × Int)} {els : List (V × Nat)} {A A' : List End} {X : List Edge} {t : Int} {s : PS} {N : List (V × Nat)}
    {F : Option Nat} (h : After p from_ inc els A X t s N F) (hp : A.Perm A') : After p from_ inc els A' X t s N F :=
  ⟨h.els, h.at_, h.keys, h.web.permA (hp.append_left _), h.ret⟩

theorem onePoint_ord {ω : Edge → Int} {D : List V} (c : Clean D) {x : Int} {sd : List (V × Nat)} (hc : Col D x sd) {dn : Pt → Bool} {s : ES} {F : Option Nat} {W : Option (V × Nat)}
    (m : MidC D x sd dn s F W) (st : St D x sd dn s F W) {ev : V} {r : List V} (hev : s.evs = ev :: r) (hx : ev.1.1.1 = x) {lo hi sd0 : List (V × Nat)}
    (o : Ord ω D x sd dn s F W lo hi sd0) (h0 : ω (ev.1.1, ev.1.1) = 0) (hq : ∀ e ∈ D, e.1.1 = ev.1.1 → ∀ σ, ω (dir e.1.1 e.1.2 σ) = 0) :
    ∃ s' F' W', onePoint x sd s = some s' ∧ s'.evs.length < s.evs.length ∧ MidC D x sd (fun q => dn q || q == ev.1.1) s' F' W' ∧
      St D x sd (fun q => dn q || q == ev.1.1) s' F' W' ∧ ∃ lo hi sd0, Ord ω D x sd (fun q => dn q || q == ev.1.1) s' F' W' lo hi sd0 := by
  obtain ⟨inc, hinc⟩ : ∃ inc, inc = turnLast ev.1.1.1 ((isort (lessCount ev.1.1) ((s.evs.takeWhile (fun e => decide (e.1.1 = ev.1.1))).map (fun e => (e.1.2, e.2)))).filter
      (fun a => lessPoint ev.1.1 a.1)) := ⟨_, rfl⟩
  obtain ⟨A, B, C, L, Wi, Le, hh, hB, hfp, hF⟩ := here_core c hc m st hev hx hinc
  have hbelow : ∀ a ∈ A, Y a.1.1 x < ev.1.1.2 := by have := hh.below; rwa [hx] at this
  have habove : ∀ a ∈ C, (ev.1.1.2 : ℚ) < Y a.1.1 x := by have := hh.above; rwa [hx] at this
  have hless : ∀ v, Vertex (evs D) v → v.1 = x → dn v = true → (v.2 : ℚ) < ev.1.1.2 := by
    intro v hv hvx hd
    have := m.ev.sep v ev.1.1 hv hh.vtx hd hh.ndn
    unfold plt at this
    have : v.2 < ev.1.1.2 := by omega
    exact_mod_cast this
  have hBat : ∀ a ∈ B, Y a.1.1 x = ev.1.1.2 := by
    intro a ha
    have hm : a ∈ sd := by rw [hh.split]; simp [ha]
    have := (end_at c.good hh.vtx (Has.evs (hc.mem hm).1) (by rw [hx]; exact (hc.mem hm).2)).2 (hh.at_ a ha)
    rwa [hx] at this
  -- the old scanline
  obtain ⟨hi1, hA, hhi⟩ : ∃ hi1, A = sd0 ++ hi1 ∧ hi = hi1 ++ (B ++ C) := by
    rcases List.append_eq_append_iff.1 (hh.split.symm.trans o.split) with ⟨as, h1, h2⟩ | ⟨bs, h1, h2⟩
    · cases as with
      | nil => exact ⟨[], by rw [h1]; simp, by rw [h2]; simp⟩
      | cons a as =>
        exfalso
        obtain ⟨v, v1, v2, v3, v4⟩ := o.old a (by rw [h1]; simp)
        have h3 := hless v v1 v2 v3
        have h4 : a ∈ B ++ C := by rw [h2]; simp
        rcases List.mem_append.1 h4 with h | h
        · have := hBat a h; linarith
        · have := habove a h; linarith
    · exact ⟨bs, h1, h2⟩
  have hsub : ∀ a ∈ hi1, a ∈ sd := fun a ha => by rw [o.split, hhi]; simp [ha]
  have hnd : ∀ a ∈ hi, dn a.1.1.2 = false := by
    intro a ha
    rcases List.mem_append.1 (o.perm.mem_iff.1 (List.mem_append_right lo ha)) with h | h
    · simpa using (List.mem_filter.1 h).2
    · exfalso
      have h1 := List.mem_filter.1 (m.els.mem_iff.1 (List.mem_map.2 ⟨a, h, rfl⟩))
      simp only [Bool.and_eq_true, decide_eq_true_eq] at h1
      have h2 := (hc.mem (show a ∈ sd by rw [o.split]; simp [ha])).2.1
      omega
  have hhi1 : ∀ a ∈ hi1, Has (evs D) a.1.1 ∧ RSpan x a.1.1 ∧ Y a.1.1 x < ev.1.1.2 := by
    intro a ha
    obtain ⟨g1, g2⟩ := hc.mem (hsub a ha)
    have hy := hbelow a (by rw [hA]; simp [ha])
    refine ⟨Has.evs g1, ⟨g2.1.le, ?_⟩, hy⟩
    by_contra hn
    have hn : a.1.1.2.1 = x := by have := g2.2; omega
    have h1 := Y_right g2.nv
    rw [hn] at h1
    rw [h1] at hy
    have hy : a.1.1.2.2 < ev.1.1.2 := by exact_mod_cast hy
    rcases hh.least a.1.1.2 (vertex_2 g1) (hnd a (by rw [hhi]; simp [ha])) with g | g
    · rw [g] at hy; omega
    · unfold plt at g; omega
  have hW1 : W ≠ none → hi1 = [] := by
    intro hW
    rcases hi1 with _ | ⟨a, hi1⟩
    · rfl
    exfalso
    have ha := hhi1 a (by simp)
    rcases st with ⟨h, _⟩ | ⟨w, hw, _, _, _, e, he, h1, h2, h3, h4, _⟩ | ⟨_, _, h, _⟩
    · exact hW h
    · have hwt := hh.wtop w hw
      rw [h1] at hwt
      have hb := o.high a (by rw [hhi]; simp) e.1.1 (vertex_1 he) h2 h4
      exact cross_vert c.good (Has.evs he) ha.1 h2 h3 (hc.mem (hsub a (by simp))).2 hb (by rw [hwt]; exact ha.2.2)
    · exact hW h
  have hF1 : F ≠ none → hi1 = [] := by
    intro hFn
    rcases hi1 with _ | ⟨a, hi1⟩
    · rfl
    exfalso
    obtain ⟨ev', r', g1, g2⟩ := o.fl hFn
    rw [hev] at g1
    obtain ⟨rfl, rfl⟩ := List.cons.inj g1
    have h1 := g2 a (by rw [hhi]; simp)
    have h2 := (hhi1 a (by simp)).2.2
    linarith
  have hBr : isort lessInc B = B.reverse := by
    have hs : (isort lessInc B).reverse = B := by
      refine srt_eq c.good ?_ ?_ ((List.reverse_perm _).trans (isort_perm lessInc B)) ?_
      · rw [List.pairwise_reverse]; exact hh.bsrt
      · rw [hB]; exact hc.srt.sublist List.filter_sublist
      · intro a ha
        have ha : a ∈ B := (isort_perm lessInc B).mem_iff.1 (List.mem_reverse.1 ha)
        rw [hB] at ha
        have := hc.mem (List.mem_filter.1 ha).1
        exact ⟨Has.evs this.1, this.2.nv⟩
    rw [← hs, List.reverse_reverse, hs]
  have hS : lo ++ (W.toList ++ hi) = (lo ++ hi1) ++ ((isort lessInc B ++ W.toList).reverse ++ C) := by
    rw [hBr, hhi]
    cases W with
    | none => simp
    | some w => rw [hW1 (by simp)]; simp
  have hfe : ∀ a ∈ isort lessInc B ++ W.toList, a.1.1.2 = ev.1.1 := by
    intro a ha
    rcases List.mem_append.1 ha with h | h
    · exact hh.at_ a ((isort_perm lessInc B).mem_iff.1 h)
    · exact hh.wtop a (by simpa using h)
  -- colours
  have hcol := o.col
  rw [hS, List.reverse_append, List.reverse_append, List.reverse_reverse] at hcol
  obtain ⟨b', hcol, hcol3⟩ := hcol.split
  obtain ⟨t', hcol1, hcol2⟩ := hcol.split
  have hsumC := above_sum c hc hh.vtx hx hh.split hh.below hh.at_ hh.above
  have ht' : t' = tt D ev.1.1 := by
    have := hcol1.sum
    rw [(((List.reverse_perm C).map _).sum_eq : _ = (C.map (fun a : V × Nat => a.1.2)).sum)] at this
    omega
  subst ht'
  have hb' : b' = bb D ev.1.1 := by rw [hcol2.sum, hh.fcol.sum]
  subst hb'
  have hbb := (Colors.bounds hh.fcol).2
  have hlo : ((lo ++ hi1).length : Int) % 2 = bb D ev.1.1 := by
    have := hcol3.par
    rw [List.length_reverse] at this
    omega
  have hz : ∀ a ∈ inc, ω (dir ev.1.1 a.1 a.2) = 0 := by
    intro a ha
    rw [hh.inceq] at ha
    obtain ⟨e, he, rfl⟩ := List.mem_map.1 ha
    have h1 := List.mem_filter.1 (hh.starts.mem_iff.1 he)
    have h2 : e.1.1 = ev.1.1 := by simpa using h1.2
    have := hq e h1.1 h2 (sg e)
    rw [h2] at this
    exact this
  -- the web
  have hwS : WebS ω s.H ((lo ++ hi1) ++ ((isort lessInc B ++ W.toList).reverse ++ C)) F lo.length s.out ((D.filter (fun e => dn e.1.2)).map solidLeft) := by
    rw [← hS]
    refine ⟨m.web.permA ?_, o.fit, o.good⟩
    have h1 := o.perm.map en
    rw [List.perm_iff_count] at h1 ⊢; intro z
    have := h1 z
    simp only [List.map_append, List.count_append] at this ⊢
    omega
  have hpB : (sd.filter (fun a => !dn a.1.1.2)).Perm (B ++ sd.filter (fun a => !(dn a.1.1.2 || a.1.1.2 == ev.1.1))) := by
    have h1 := filter_or_perm sd (fun a => decide (a.1.1.2 = ev.1.1)) (fun a => !(dn a.1.1.2 || a.1.1.2 == ev.1.1)) (by
      intro a _ ha
      simp only [decide_eq_true_eq] at ha
      simp [ha])
    rw [← hB] at h1
    refine List.Perm.trans (List.Perm.of_eq (List.filter_congr ?_)) h1
    intro a _
    have := hh.ndn
    by_cases h : a.1.1.2 = ev.1.1
    · simp [h, this]
    · simp [h]
  have hp2 : ((lo ++ hi1) ++ C).Perm (sd.filter (fun a => !(dn a.1.1.2 || a.1.1.2 == ev.1.1)) ++ s.els) := by
    have h1 := o.perm
    rw [hhi] at h1
    rw [List.perm_iff_count] at h1 hpB ⊢; intro z
    have h1 := h1 z
    have h2 := hpB z
    simp only [List.count_append] at h1 h2 ⊢
    omega
  obtain ⟨sp, N', F', e1, ha, N, k1, k2, X', wS⟩ : ∃ sp N' F', processPoint ev.1.1 (isort lessInc B ++ (match s.vt with | some t => [(((s.vc.1, ev.1.1), -s.vc.2), t)] | none => [])) inc
        s.H s.out s.els = some sp ∧ After ev.1.1 (isort lessInc B ++ W.toList) inc s.els (((lo ++ hi1) ++ C).map en) ((D.filter (fun e => dn e.1.2)).map solidLeft)
        (tt D ev.1.1) sp N' F' ∧ ∃ N, N.Perm N' ∧ N.map key = inc ∧ ∃ X', WebS ω sp.H ((lo ++ hi1) ++ (N ++ C)) F' (lo ++ hi1).length sp.out X' := by
    rcases hF with ⟨hFn, heq⟩ | ⟨f, f1, f2, f3, f4, f5, f6, f7, f8, f9⟩
    · rw [hFn] at hwS
      obtain ⟨sp, N', F', e1, e2, N, k1, k2, k3⟩ := processPoint_ord (els := s.els) hh.fcol hh.icol hfp hfe hh.nlt hh.ol h0 hz hlo hwS
      exact ⟨sp, N', F', (congrArg (fun z => processPoint ev.1.1 (isort lessInc B ++ z) inc s.H s.out s.els) heq).trans e1, e2, N, k1, k2, _, k3⟩
    · have hic' := hh.icol
      rw [f7, f8] at hic'
      have hi0 : isort lessInc B = [] := by rw [f5]; rfl
      have h10 : hi1 = [] := hF1 (by rw [f3]; simp)
      rw [hi0, f4, f3] at hwS
      have hwS' : WebS ω s.H ((lo ++ hi1) ++ C) (some f.2) (lo ++ hi1).length s.out ((D.filter (fun e => dn e.1.2)).map solidLeft) := by
        rw [h10] at hwS ⊢
        simpa using hwS
      obtain ⟨sp, N', e1, e2, N, k1, k2, k3⟩ := processPoint_float_ord (f := f) (els := s.els) (p := ev.1.1) f1 f2 hic' f6 hh.nlt hh.ol hz (by rw [hlo, f8]) hwS'
      exact ⟨sp, N', none, (congrArg (fun z => processPoint ev.1.1 z inc s.H s.out s.els) f9).trans e1, by rw [hi0, f4, f7]; exact e2, N, k1, k2, _, k3⟩
  obtain ⟨s', F2, W', c1, c2, c3, c4, c5, c6, c7, c8, c9⟩ := onePoint_core c hc m st hev hx hinc hh e1 (ha.permA (by rw [← List.map_append]; exact hp2.map en))
  refine ⟨s', F2, W', c1, c2, c3, c4, ?_⟩
  -- the new ends
  have hNp : ∀ a ∈ N, a.1.1.1 = ev.1.1 := fun a h => ha.at_ a (k1.mem_iff.1 h)
  obtain ⟨Nl, Nw, hN, n1, n2⟩ : ∃ Nl Nw, N = Nl ++ Nw ∧ Nl.map key = L.map (fun e => (e.1.2, sg e)) ∧ Nw.map key = Wi.toList.map (fun e => (e.1.2, sg e)) := by
    have := k2
    rw [hh.inceq, List.map_append] at this
    exact List.map_eq_append_iff.1 this
  have hLp : ∀ e ∈ L, e.1.1 = ev.1.1 := fun e he => by simpa using (List.mem_filter.1 (hh.starts.mem_iff.1 (List.mem_append_left _ he))).2
  have hLD : ∀ e ∈ L, e ∈ D := fun e he => (List.mem_filter.1 (hh.starts.mem_iff.1 (List.mem_append_left _ he))).1
  have hNl1 : Nl.map (fun a => a.1.1) = L.map (fun e => e.1) := by
    have := congrArg (List.map (fun k : Pt × Int => ((ev.1.1, k.1) : HE))) n1
    rw [List.map_map, List.map_map] at this
    rw [List.map_congr_left (g := (fun k : Pt × Int => ((ev.1.1, k.1) : HE)) ∘ key), this, List.map_congr_left]
    · intro e he; simp only [Function.comp]; rw [← hLp e he]
    · intro a h; simp only [Function.comp, key]; rw [← hNp a (by rw [hN]; simp [h])]
  have hNl2 : ∀ a ∈ Nl, Has (evs D) a.1.1 ∧ RSpan x a.1.1 ∧ Y a.1.1 x = ev.1.1.2 := by
    intro a h
    have h1 : a.1.1 ∈ L.map (fun e => e.1) := by rw [← hNl1]; exact List.mem_map.2 ⟨a, h, rfl⟩
    obtain ⟨e, he, h2⟩ := List.mem_map.1 h1
    have h3 : e.1.1.1 < e.1.2.1 := hh.nv e he
    have h4 := Y_left (hh.nv e he)
    have h5 := hLp e he
    rw [h5, hx] at h3
    rw [h5, hx] at h4
    rw [← h2]
    exact ⟨Has.evs (hLD e he), ⟨by rw [h5]; exact hx.le, h3⟩, h4⟩
  have hNls : Nl.Pairwise (fun a b => Lt a.1.1 b.1.1) := by
    have : (Nl.map (fun a => a.1.1)).Pairwise Lt := by
      rw [hNl1, List.pairwise_map]; exact hh.lsrt
    rwa [List.pairwise_map] at this
  have hNw : Nw = W'.toList := by
    have h1 := k1.filter (fun a => decide (a.1.1.2.1 = ev.1.1.1))
    rw [c5, hN, List.filter_append, List.filter_eq_nil_iff.2, List.filter_eq_self.2, List.nil_append] at h1
    · cases W' with
      | none => exact h1.eq_nil
      | some w => exact List.perm_singleton.1 h1
    · intro a h
      have h2 : key a ∈ Wi.toList.map (fun e => (e.1.2, sg e)) := by rw [← n2]; exact List.mem_map.2 ⟨a, h, rfl⟩
      obtain ⟨e, he, h3⟩ := List.mem_map.1 h2
      have he : Wi = some e := by simpa using he
      have h4 := hh.vert e he
      have h5 : e.1.1 = ev.1.1 := by simpa using (List.mem_filter.1 (hh.starts.mem_iff.1 (List.mem_append_right L (show e ∈ Wi.toList by rw [he]; simp)))).2
      have h6 : e.1.2 = a.1.1.2 := congrArg Prod.fst h3
      rw [h5, h6] at h4
      simpa using h4.symm
    · intro a h
      have := (hNl2 a h).2.1.2
      simp only [decide_eq_true_eq]
      omega
  have hNlf : Nl.Perm (N'.filter (fun a => decide (a.1.1.2.1 ≠ ev.1.1.1))) := by
    have h1 := k1.filter (fun a => decide (a.1.1.2.1 ≠ ev.1.1.1))
    rw [hN, List.filter_append, List.filter_eq_self.2, List.filter_eq_nil_iff.2, List.append_nil] at h1
    · exact h1
    · intro a h
      rw [hNw, ← c5] at h
      simpa using (List.mem_filter.1 h).2
    · intro a h
      have := (hNl2 a h).2.1.2
      simp only [decide_eq_true_eq]
      omega
  have hS2 : (lo ++ hi1) ++ (N ++ C) = (lo ++ hi1 ++ Nl) ++ (W'.toList ++ C) := by rw [hN, hNw]; simp
  have hN0 : ∀ h, F' = some h → N = [] ∧ tt D ev.1.1 = 1 ∧ bb D ev.1.1 = 1 := by
    intro h hF'
    rcases ha.ret with ⟨g, _⟩ | ⟨_, _, g1, g2, _⟩
    · rw [hF'] at g; simp at g
    · rw [g1] at k2
      have := hh.icol
      rw [g1] at this
      exact ⟨List.map_eq_nil_iff.1 k2, g2, by rw [← this.1]; exact g2⟩
  have hfg : Fit ω s'.H ((lo ++ hi1 ++ Nl) ++ (W'.toList ++ C)) F2 (lo ++ hi1 ++ Nl).length := by
    rcases c8 with ⟨g1, g2⟩ | ⟨h, a, C', g1, g2, g3, g4⟩
    · rw [g1, g2]
      rw [hS2] at wS
      cases hF' : F' with
      | none => rw [hF'] at wS; exact wS.fit.gap
      | some h =>
        have := (hN0 h hF').1
        rw [hN] at this
        have : Nl = [] := (List.append_eq_nil_iff.1 this).1
        rw [hF', this, List.append_nil] at wS
        rw [this, List.append_nil]
        exact wS.fit
    · have h1 := hN0 h g2
      rw [g2, h1.1, g1] at wS
      have h2 := (WebS.addHole (g' := (lo ++ hi1 ++ Nl).length) (show WebS ω sp.H ((lo ++ hi1) ++ a :: C') (some h) (lo ++ hi1).length sp.out X' from wS) (by rw [hlo]; exact h1.2.2)).fit
      have h3 := hS2
      rw [h1.1, g1] at h3
      rw [g3, g4, g1, ← h3]
      exact h2
  refine ⟨lo ++ hi1 ++ Nl, C, A ++ B, ?_, ?_, ?_, ?_, ?_, ?_, c9, ?_, hfg, ?_⟩
  · rw [hh.split, List.append_assoc]
  · rw [c6, ha.els]
    rw [List.perm_iff_count] at hp2 hNlf ⊢; intro z
    have h1 := hp2 z
    have h2 := hNlf z
    simp only [List.count_append] at h1 h2 ⊢
    omega
  · rw [List.pairwise_append, List.pairwise_append]
    refine ⟨⟨o.srt, ?_, ?_⟩, hNls, ?_⟩
    · have := hc.srt
      rw [o.split, hhi] at this
      exact (this.sublist (List.sublist_append_right _ _)).sublist (List.sublist_append_left _ _)
    · intro a h1 b h2
      obtain ⟨g1, g2, v, v1, v2, v3, v4⟩ := o.low a h1
      have := o.high b (by rw [hhi]; simp [h2]) v v1 v2 v3
      exact lt_at c.good g1 (hhi1 b h2).1 g2 (hhi1 b h2).2.1 (by linarith)
    · intro a h1 b h2
      obtain ⟨b1, b2, b3⟩ := hNl2 b h2
      rcases List.mem_append.1 h1 with h1 | h1
      · obtain ⟨g1, g2, v, v1, v2, v3, v4⟩ := o.low a h1
        have := hless v v1 v2 v3
        exact lt_at c.good g1 b1 g2 b2 (by linarith)
      · obtain ⟨g1, g2, g3⟩ := hhi1 a h1
        exact lt_at c.good g1 b1 g2 b2 (by linarith)
  · intro a h
    rcases List.mem_append.1 h with h | h
    · rcases List.mem_append.1 h with h | h
      · obtain ⟨g1, g2, v, v1, v2, v3, v4⟩ := o.low a h
        exact ⟨g1, g2, v, v1, v2, by simp [v3], v4⟩
      · obtain ⟨g1, g2, g3⟩ := hhi1 a h
        exact ⟨g1, g2, ev.1.1, hh.vtx, hx, by simp, g3.le⟩
    · obtain ⟨g1, g2, g3⟩ := hNl2 a h
      exact ⟨g1, g2, ev.1.1, hh.vtx, hx, by simp, g3.le⟩
  · intro a h v v1 v2 v3
    have h1 := habove a h
    simp only [Bool.or_eq_true, beq_iff_eq] at v3
    rcases v3 with v3 | rfl
    · have := hless v v1 v2 v3; linarith
    · exact h1
  · intro a h
    refine ⟨ev.1.1, hh.vtx, hx, by simp, ?_⟩
    rcases List.mem_append.1 h with h | h
    · exact (hbelow a h).le
    · exact (hBat a h).le
  · rw [← hS2, List.reverse_append, List.reverse_append]
    refine (hcol1.append ?_).append hcol3
    refine hh.icol.signs ?_
    rw [← k2, ← List.map_reverse, List.map_map]
    rfl
  · rw [c7]; exact wS.good

end Verif.ArbForm
