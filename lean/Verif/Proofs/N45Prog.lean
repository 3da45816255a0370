import Verif.Proofs.N45Manh
import Verif.Proofs.Set45Prog
import Verif.Proofs.FormProper
/-!
# Every set a program builds is regular once it is clean, and its formation
-/
namespace Verif.N45
open Verif.Deg45 Verif.Set45 Verif.Spec.Deg45
open Verif.ArbForm (Heap Poly solid_or sides_walk Walk windAt_sides sum_sides crossing_same ring_wind)
open Verif.F45 (LR PR Oct Oct2 wnd)
open Verif.Spec.Arb (sides Ring solidLeft windAt)

theorem applyBool_regular {umin umax : Int} {op : Nat} (hop : op < 4) {s t u : S45} (hs : Valid umin umax s) (ht : Valid umin umax t)
    (h : s.applyBool op umin umax t = .ok u) : Regular u.data := by
  unfold S45.applyBool at h
  by_cases c : (s.manh && t.manh) = true
  · rw [if_pos c] at h
    have ⟨c1, c2⟩ := (Bool.and_eq_true _ _ ▸ c : s.manh = true ∧ t.manh = true)
    have vs := valid90 (hs.manh c1) hs.closed hs.range
    have vt := valid90 (ht.manh c2) ht.closed ht.range
    obtain ⟨d, e, h1, h2, h3, h4⟩ := Set90.scan2 (f := code90 op) (umin := umin) (umax := umax)
      (by have := (code90_iff hop 0 0).not; rw [Bool.eq_false_iff, ne_eq, this]; unfold holds2; split_ifs <;> simp)
      vs.sortedData vt.sortedData vs.sort.closed vt.sort.closed vs.sort.range vt.sort.range (fun a y => rfl) (fun a y => rfl)
    rw [e] at h
    simp only at h
    rw [insert90_eq] at h
    injection h with h
    rw [← h]
    exact regular90 (Set90.valid_out (umin := umin) (umax := umax) (o := Isotropy.VERTICAL) (Or.inr rfl) h1 h2 h3 h4 false false)
  · rw [if_neg c] at h
    have g0 : logic2 op (0 : Int × Int) = false := by
      have := (logic2_iff hop 0 0).not
      rw [Bool.eq_false_iff, ne_eq]; show ¬ logic2 op (0, 0) = true
      rw [this]; unfold holds2; split_ifs <;> simp
    rcases e : boolean45 (logic2 op) umin s.sort.data t.sort.data with x | ⟨d, m⟩
    · rw [e] at h; simp at h
    · rw [e] at h
      injection h with h
      rw [← h]
      exact (runOn_noded g0 (merge2_sorted _ _ _ (le_refl _) (sorted_data hs) (sorted_data ht)) (merge2_closed (valid_sort hs).closed (valid_sort ht).closed)
        (merge2_pts (T := fun p => umin ≤ p.1) (fun v hv => ((valid_sort hs).range v hv).1) (fun v hv => ((valid_sort ht).range v hv).1)) e).regular

theorem applyUnary_regular {umin umax : Int} {op : Nat} (hop : op = 0 ∨ op = 1 ∨ op = 3) (hu : umin ≤ umax) {s u : S45} (hs : Valid umin umax s)
    (h : s.applyUnary op umin umax = .ok u) : Regular u.data := by
  unfold S45.applyUnary at h
  by_cases c : s.manh = true
  · rw [if_pos c] at h
    have hm := hs.manh c
    have vs := valid90 hm hs.closed hs.range
    obtain ⟨g1, g2, g3, g4⟩ := to90_eq s.data
    obtain ⟨f1, f2, f3, f4⟩ := Set90.sort_facts (to90 s.data)
    have hcov : ∀ q : ℚ × ℚ, Spec.cover (to90 s.data).sort.data q.1 q.2 = depth s.data q := by
      intro q
      rw [Set90.cover_eq, Set90.coverZ_perm f4, g2, ← Set90.cover_eq]
      exact cover_data90 hm hs.closed q
    obtain ⟨d, e, v, hd⟩ := clean90_spec hop hu vs.sort (by rw [f1, g1]) (by
      rw [f2]; intro h
      rw [g2, g3 h] at f4; exact f4.eq_nil) (by
      intro q hq; rw [hcov]; exact depth_box_le hs.closed (box_of_range hs.range) hq)
    rw [e] at h
    simp only at h
    rw [insert90_eq] at h
    injection h with h
    rw [← h]
    exact regular90 v
  · rw [if_neg c] at h
    have g0 : logic1 op (0 : Int) = false := by rcases hop with rfl | rfl | rfl <;> rfl
    rcases e : unary45 (logic1 op) umin s.sort.data with x | ⟨d, m⟩
    · rw [e] at h; simp at h
    · rw [e] at h
      injection h with h
      rw [← h]
      exact (runOn_noded g0 (sorted_data hs) (valid_sort hs).closed (fun v hv => ((valid_sort hs).range v hv).1) e).regular

/-- A set that says it is clean holds regular data. -/
def Fit (s : S45) : Prop := s.dirty = false → s.unsorted = false ∧ Regular s.data

theorem clean_regular {umin umax : Int} (hu : umin ≤ umax) {s u : S45} (hs : Valid umin umax s) (hf : Fit s) (h : s.clean umin umax = .ok u) : Regular u.data := by
  obtain ⟨f1, f2, f3, f4, f5⟩ := sort_facts s
  unfold S45.clean at h
  by_cases c : s.sort.dirty = true
  · rw [if_pos c] at h
    exact applyUnary_regular (Or.inl rfl) hu (valid_sort hs) h
  · rw [if_neg c] at h
    obtain ⟨h1, h2⟩ := hf (by rw [← f2]; simpa using c)
    injection h with h
    rw [← h]
    unfold S45.sort
    rw [h1]
    exact h2

theorem fit_new : Fit S45.new := fun _ => ⟨rfl, [], Cmp.nil, ⟨List.Pairwise.nil, ⟨fun _ => rfl, fun _ => rfl, fun _ => rfl, fun _ => rfl, fun _ => rfl⟩,
  fun q => Or.inl rfl, fun v hv => by simp at hv, fun p _ hx => by
    rcases hx with h | h | h <;> exact h.1 rfl⟩⟩

theorem fit_insertPoly {s : S45} (h : Fit s) (P : List P) (b : Bool) : Fit (s.insertPoly P b) := by
  unfold S45.insertPoly S45.insertSeq
  split
  · exact h
  · intro hd; simp at hd

theorem fit_insertHoles {s : S45} (h : Fit s) (P : List Deg45.P) (H : List (List Deg45.P)) (b : Bool) : Fit (s.insertHoles P H b) := by
  unfold S45.insertHoles
  have : ∀ (H : List (List Deg45.P)) (s : S45), Fit s → Fit (H.foldl (fun s h => s.insertPoly h (!b)) s) := by
    intro H
    induction H with
    | nil => intro s h; exact h
    | cons r H ih => intro s h; exact ih _ (fit_insertPoly h r _)
  exact this H _ (fit_insertPoly h P b)

theorem run_fit {umin umax : Int} (hu : umin ≤ umax) : ∀ {p : Prog}, p.Ok umin umax → ∀ {u : S45}, p.run umin umax = .ok u → Fit u := by
  have valid : ∀ {p : Prog}, p.Ok umin umax → ∀ {u : S45}, p.run umin umax = .ok u → Valid umin umax u := by
    intro p h u e
    rcases run_spec hu h with ⟨v, e', g⟩ | ⟨e', -⟩
    · rw [e] at e'; injection e' with e'; rw [e']; exact g.valid
    · rw [e] at e'; simp at e'
  intro p
  induction p with
  | new => intro _ u e; simp only [Prog.run, Out.ok.injEq] at e; rw [← e]; exact fit_new
  | poly h P H b ih =>
    intro ok u e
    simp only [Prog.run] at e
    rcases hr : h.run umin umax with s | _ | x <;> rw [hr] at e <;> simp only [Out.ok.injEq, reduceCtorEq] at e
    rw [← e]
    exact fit_insertHoles (ih ok.1 hr) _ _ _
  | rect h r b ih =>
    intro ok u e
    simp only [Prog.run] at e
    rcases hr : h.run umin umax with s | _ | x <;> rw [hr] at e <;> simp only [Out.ok.injEq, reduceCtorEq] at e
    rw [← e]
    intro hd; simp [S45.insertRect] at hd
  | set h k b ih ih' =>
    intro ok u e
    simp only [Prog.run] at e
    rcases hr : h.run umin umax with s | _ | x <;> rw [hr] at e <;> (try simp only [reduceCtorEq] at e)
    rcases hk : k.run umin umax with t | _ | x <;> rw [hk] at e <;> simp only [Out.ok.injEq, reduceCtorEq] at e
    rw [← e]
    intro hd; simp [S45.insertSet] at hd
  | op h o k ih ih' =>
    intro ok u e
    simp only [Prog.run] at e
    rcases hr : h.run umin umax with s | _ | x <;> rw [hr] at e <;> (try simp only [reduceCtorEq] at e)
    rcases hk : k.run umin umax with t | _ | x <;> rw [hk] at e <;> (try simp only [reduceCtorEq] at e)
    have v1 := valid ok.1 hr
    have v2 := valid ok.2 hk
    intro _
    refine ⟨?_, applyBool_regular o.2 v1 v2 e⟩
    rcases applyBool_spec (op := o) o.2 v1 v2 with ⟨u', e2, -, h2, -⟩ | ⟨e2, -⟩
    · rw [e] at e2; injection e2 with e2; rw [e2]; exact h2.2
    · rw [e] at e2; simp at e2
  | clean h ih =>
    intro ok u e
    simp only [Prog.run] at e
    rcases hr : h.run umin umax with s | _ | x <;> rw [hr] at e <;> (try simp only [reduceCtorEq] at e)
    have v1 := valid (p := h) ok hr
    intro _
    refine ⟨?_, clean_regular hu v1 (ih ok hr) e⟩
    rcases clean_spec hu v1 with ⟨u', e2, -, h2, -⟩ | ⟨e2, -⟩
    · rw [e] at e2; injection e2 with e2; rw [e2]; exact h2.2
    · rw [e] at e2; simp at e2
  | selfIntersect h ih =>
    intro ok u e
    simp only [Prog.run] at e
    rcases hr : h.run umin umax with s | _ | x <;> rw [hr] at e <;> (try simp only [reduceCtorEq] at e)
    have v1 := valid (p := h) ok hr
    intro _
    unfold S45.self at e
    refine ⟨?_, applyUnary_regular (Or.inr (Or.inl rfl)) hu (valid_sort v1) e⟩
    rcases applyUnary_spec (op := 1) (Or.inr (Or.inl rfl)) hu (valid_sort v1) with ⟨u', e2, -, h2, -⟩ | ⟨e2, -⟩
    · rw [e] at e2; injection e2 with e2; rw [e2]; exact h2.2
    · rw [e] at e2; simp at e2

/-! ### Outlines -/

theorem wnd_sides (q : ℚ × ℚ) : ∀ l : List P, wnd q l = ((sides l).map (Spec.Arb.crossing q)).sum
  | [] => rfl
  | [a] => rfl
  | a :: b :: r => by
    have ih := wnd_sides q (b :: r)
    unfold sides at ih ⊢
    rw [sum_sides] at ih ⊢
    rw [F45.wnd_cons, ih]
    simp

theorem oct_iff : ∀ l : List P, Oct l ↔ ∀ e ∈ sides l, Oct2 e.1 e.2
  | [] => by simp [Oct, sides]
  | [a] => by simp [Oct, sides]
  | a :: b :: r => by
    have ih := oct_iff (b :: r)
    have e : Oct (a :: b :: r) ↔ Oct2 a b ∧ Oct (b :: r) := Iff.rfl
    rw [e, ih, ArbForm.sides_cons, ArbForm.step]
    by_cases c : a = b
    · rw [if_pos c]
      constructor
      · exact fun h => h.2
      · exact fun h => ⟨c ▸ Oct2.refl _, h⟩
    · rw [if_neg c]
      simp

/-- An outline that winds around a point has three sides. -/
theorem three_of_wind {m : List P} (h : m.head? = m.getLast?) {q : ℚ × ℚ} (hw : wnd q m ≠ 0) : Ring m ∧ 3 ≤ (sides m).length := by
  rw [wnd_sides] at hw
  have hne : sides m ≠ [] := by intro e; rw [e] at hw; exact hw rfl
  refine ⟨⟨hne, h⟩, ?_⟩
  obtain ⟨a, ha⟩ : ∃ a, m.head? = some a := by cases m with
    | nil => exact absurd rfl hne
    | cons a r => exact ⟨a, rfl⟩
  have wk := sides_walk m a a ha (by rw [← h]; exact ha)
  generalize sides m = s at *
  match s, hne, wk, hw with
  | [e], _, wk, _ =>
    obtain ⟨k1, k2, k3⟩ := wk
    exact absurd (k1.trans k3.symm) k2
  | [e, f], _, wk, hw =>
    obtain ⟨k1, k2, k3, k4, k5⟩ := wk
    exfalso
    apply hw
    have hf : f = e.swap := Prod.ext k3 (k5.trans k1.symm)
    rw [hf, List.map_cons, List.map_cons, PolySet.crossing_swap]
    simp
  | e :: f :: g :: r, _, _, _ => simp

/-- All outlines of the polygons, outer ones and holes. -/
def outlines (out : List Poly) : List (List (Int × Int)) := out.flatMap (fun P => P.outer :: P.holes)

theorem outlines_rel {out' out : List Poly} (h : List.Forall₂ PR out' out) : List.Forall₂ LR (outlines out') (outlines out) := by
  induction h with
  | nil => exact List.Forall₂.nil
  | cons h _ ih =>
    unfold outlines at ih ⊢
    rw [List.flatMap_cons, List.flatMap_cons]
    exact List.rel_append (List.Forall₂.cons h.o h.h) ih

theorem rel_mem {α β : Type} {R : α → β → Prop} {A : List α} {B : List β} (h : List.Forall₂ R A B) {a : α} (ha : a ∈ A) : ∃ b ∈ B, R a b := by
  induction h with
  | nil => simp at ha
  | cons h _ ih =>
    rcases List.mem_cons.1 ha with rfl | ha
    · exact ⟨_, by simp, h⟩
    · obtain ⟨b, hb, r⟩ := ih ha
      exact ⟨b, by simp [hb], r⟩

theorem windAt_wnd {l : List P} (h : Ring l) (q : ℚ × ℚ) : windAt l q = wnd q l := by rw [windAt_sides h, wnd_sides]

/-- The polygons of regular data. -/
theorem Regular.polys {D : List VC} (h : Regular D) : ∃ out, Form45.form D = some out ∧
    (∀ l ∈ outlines out, Ring l ∧ 3 ≤ (sides l).length ∧ ∀ e ∈ sides l, Oct2 e.1 e.2) ∧ (∀ P ∈ out, Spec.Arb.Proper P.outer P.holes) ∧
    ∀ q, ((outlines out).map (fun l => windAt l q)).sum = depth D q := by
  obtain ⟨C, out, out', c1, c2, h1, h2, h3⟩ := h.form
  obtain ⟨o, e1, e2, e3⟩ := ArbForm.form_spec c2.clean
  rw [h1] at e1
  obtain rfl := Option.some_inj.1 e1
  refine ⟨out', h2, ?_⟩
  have hrel := outlines_rel h3
  have hflat : out.flatMap Poly.sides = (outlines out).flatMap sides := by
    unfold outlines
    rw [List.flatMap_assoc]
    congr 1
  have hring : ∀ l ∈ outlines out, Ring l := by
    intro l hl
    obtain ⟨P, hP, hl⟩ := List.mem_flatMap.1 hl
    rcases List.mem_cons.1 hl with rfl | hl
    · exact (e3 P hP).1
    · exact (e3 P hP).2 l hl
  have hn : ((allEdges C).map Prod.fst).Nodup := all_nodup c2.srt
  have hnd : ((outlines out).flatMap sides).Nodup := by
    rw [← hflat, e2.nodup_iff]
    have hnD : (allEdges C).Nodup := List.Nodup.of_map _ hn
    refine List.Nodup.map_on (fun a ha b hb hab => ?_) hnD
    have ha' := c2.directed a ha
    have hb' := c2.directed b hb
    apply List.inj_on_of_nodup_map hn ha hb
    unfold Verif.Spec.Arb.Directed at ha' hb'
    rcases solid_or a with g | g <;> rcases solid_or b with g' | g' <;> rw [hab] at g
    · rw [g, g']
    · exfalso; rw [g] at ha'; rw [g'] at hb'; simp only [Prod.fst_swap, Prod.snd_swap] at hb'; omega
    · exfalso; rw [g] at ha'; rw [g'] at hb'; simp only [Prod.fst_swap, Prod.snd_swap] at ha'; omega
    · rw [g, g']
  have hmem : ∀ l ∈ outlines out, ∀ e ∈ sides l, e ∈ (allEdges C).map solidLeft := by
    intro l hl e he
    rw [← e2.mem_iff, hflat]
    exact List.mem_flatMap.2 ⟨l, hl, he⟩
  have hwind : ∀ l ∈ outlines out, ∃ q, windAt l q ≠ 0 := by
    intro l hl
    refine ring_wind c2.directed hn c2.planar c2.units (hring l hl) (hmem l hl) ?_
    exact (List.nodup_flatMap.1 hnd).1 l hl
  have hoct : ∀ l ∈ outlines out, Oct l := by
    intro l hl
    rw [oct_iff]
    intro e he
    obtain ⟨d, d1, d2⟩ := List.mem_map.1 (hmem l hl e he)
    have := c2.der.oct d d1
    rcases solid_or d with g | g <;> rw [d2] at g <;> rw [g] at this
    · exact this
    · exact this.symm
  have hring' : ∀ l' ∈ outlines out', Ring l' ∧ 3 ≤ (sides l').length ∧ ∀ e ∈ sides l', Oct2 e.1 e.2 := by
    intro l' hl'
    obtain ⟨l, hl, r⟩ := rel_mem hrel hl'
    obtain ⟨q, hq⟩ := hwind l hl
    rw [windAt_wnd (hring l hl), ← r.w] at hq
    obtain ⟨r1, r2⟩ := three_of_wind (by rw [r.hd, r.ls]; exact (hring l hl).2) hq
    exact ⟨r1, r2, (oct_iff l').1 (r.o (hoct l hl))⟩
  refine ⟨hring', ?_, fun q => ?_⟩
  · intro P' hP'
    obtain ⟨P, hP, r⟩ := rel_mem h3 hP'
    have hp := ArbForm.form_proper c2.clean c2.directed c2.planar h1 P hP
    have i1 : P'.outer ∈ outlines out' := List.mem_flatMap.2 ⟨P', hP', by simp⟩
    have i2 : ∀ l ∈ P'.holes, l ∈ outlines out' := fun l hl => List.mem_flatMap.2 ⟨P', hP', by simp [hl]⟩
    have w0 : ∀ q, windAt P'.outer q = windAt P.outer q := fun q => by
      rw [windAt_wnd (hring' _ i1).1, windAt_wnd (e3 P hP).1, r.o.w]
    have w1 : ∀ l' ∈ P'.holes, ∃ l ∈ P.holes, ∀ q, windAt l' q = windAt l q := by
      intro l' hl'
      obtain ⟨l, hl, rl⟩ := rel_mem r.h hl'
      exact ⟨l, hl, fun q => by rw [windAt_wnd (hring' _ (i2 l' hl')).1, windAt_wnd ((e3 P hP).2 l hl), rl.w]⟩
    have w2 : ∀ q, P'.holes.map (fun h => windAt h q) = P.holes.map (fun h => windAt h q) := by
      intro q
      have j1 : ∀ l ∈ P'.holes, Ring l := fun l hl => (hring' _ (i2 l hl)).1
      have j2 := (e3 P hP).2
      have : ∀ {A B : List (List (Int × Int))}, List.Forall₂ LR A B → (∀ l ∈ A, Ring l) → (∀ l ∈ B, Ring l) → A.map (fun l => windAt l q) = B.map (fun l => windAt l q) := by
        intro A B h
        induction h with
        | nil => intros; rfl
        | @cons a b A B hab _ ih =>
          intro hA hB
          rw [List.map_cons, List.map_cons, ih (fun l hl => hA l (by simp [hl])) (fun l hl => hB l (by simp [hl])),
            windAt_wnd (hA a (by simp)), windAt_wnd (hB b (by simp)), hab.w]
      exact this r.h j1 j2
    refine ⟨fun q => by rw [w0]; exact hp.ccw q, fun h hh q => ?_, fun q => by rw [w0, w2]; exact hp.once q, fun l hl => ?_⟩
    · obtain ⟨l, hl, e⟩ := w1 h hh
      rw [e]; exact hp.cw l hl q
    · rcases List.mem_cons.1 hl with rfl | hl
      · obtain ⟨q, hq⟩ := hp.real _ (List.mem_cons_self)
        exact ⟨q, by rw [w0]; exact hq⟩
      · obtain ⟨m, hm, e⟩ := w1 l hl
        obtain ⟨q, hq⟩ := hp.real m (by simp [hm])
        exact ⟨q, by rw [e]; exact hq⟩
  have hsum : ((outlines out').map (fun l => windAt l q)).sum = ((outlines out).map (fun l => windAt l q)).sum := by
    have : ∀ {A B : List (List P)}, List.Forall₂ LR A B → (∀ l ∈ A, Ring l) → (∀ l ∈ B, Ring l) → (A.map (fun l => windAt l q)).sum = (B.map (fun l => windAt l q)).sum := by
      intro A B h
      induction h with
      | nil => intros; rfl
      | @cons a b A B hab _ ih =>
        intro hA hB
        rw [List.map_cons, List.map_cons, List.sum_cons, List.sum_cons, ih (fun l hl => hA l (by simp [hl])) (fun l hl => hB l (by simp [hl])),
          windAt_wnd (hA a (by simp)), windAt_wnd (hB b (by simp)), hab.w]
    exact this hrel (fun l hl => (hring' l hl).1) hring
  rw [hsum, ← c1.depth, ← depth_all c2.srt c2.closed, ← ArbForm.form_wind c2.directed c2.units e2 e3 q]
  unfold outlines
  rw [ArbForm.sum_flatMap]
  rfl

/-- The polygons of a set. -/
theorem get_spec {umin umax : Int} (hu : umin ≤ umax) {s : S45} (hs : Valid umin umax s) (hf : Fit s) :
    (∃ out, Form45.get umin umax s = .polys out ∧ (∀ l ∈ outlines out, Ring l ∧ 3 ≤ (sides l).length ∧ ∀ e ∈ sides l, Oct2 e.1 e.2) ∧ (∀ P ∈ out, Spec.Arb.Proper P.outer P.holes) ∧
      ∀ q, ((outlines out).map (fun l => windAt l q)).sum = if 0 < depth s.data q then 1 else 0) ∨
    (Form45.get umin umax s = .fail .precision ∧ ¬ OnGrid s.data) := by
  unfold Form45.get
  rcases clean_spec hu hs with ⟨u, e, h1, h2, h3, h4, h5⟩ | ⟨e, -, h2⟩
  · left
    obtain ⟨out, o1, o2, oP, o3⟩ := (clean_regular hu hs hf e).polys
    rw [e]
    dsimp only
    rw [o1]
    refine ⟨out, rfl, o2, oP, fun q => ?_⟩
    rw [o3, h4]
    by_cases c : 0 < depth s.data q
    · rw [if_pos c, decide_eq_true c]; rfl
    · rw [if_neg c, decide_eq_false c]; rfl
  · right
    rw [e]
    exact ⟨rfl, h2⟩

end Verif.N45
