import Verif.Proofs.S45Out
import Verif.Proofs.S45Scan
import Verif.Spec.Deg45
import Mathlib.Data.List.Sort
/-! # The operations on vectors of 45-degree vertices -/
namespace Verif.Set45
open Verif.Deg45 Verif.Spec.Deg45

variable {C : Type} [AddCommGroup C] [DecidableEq C]
variable {g : C → Bool} {EV : Prop}

/-! ### Totals -/

section tot
omit [DecidableEq C]

@[simp] theorem tot_nil (f : P → Bool) (w : Quad C → C) : tot ([] : List (Vert C)) f w = 0 := rfl
@[simp] theorem tot_cons (v : Vert C) (D : List (Vert C)) (f : P → Bool) (w : Quad C → C) :
    tot (v :: D) f w = (if f v.1 then w v.2 else 0) + tot D f w := by simp [tot]
@[simp] theorem tot_append (D E : List (Vert C)) (f : P → Bool) (w : Quad C → C) :
    tot (D ++ E) f w = tot D f w + tot E f w := by simp [tot]

theorem tot_perm {D E : List (Vert C)} (h : D.Perm E) (f : P → Bool) (w : Quad C → C) : tot D f w = tot E f w :=
  (h.map _).sum_eq

theorem tot_filter (D : List (Vert C)) (f h : P → Bool) (w : Quad C → C) :
    tot (D.filter (fun v => h v.1)) f w = tot D (fun p => h p && f p) w := by
  induction D with
  | nil => rfl
  | cons v D ih =>
    by_cases c : h v.1 = true
    · rw [List.filter_cons_of_pos (by simpa using c), tot_cons, tot_cons, ih]; simp [c]
    · rw [List.filter_cons_of_neg (by simpa using c), tot_cons, ih]; simp [c]

theorem tot_add (D : List (Vert C)) (f : P → Bool) (w1 w2 : Quad C → C) :
    tot D f (fun q => w1 q + w2 q) = tot D f w1 + tot D f w2 := by
  induction D with
  | nil => simp
  | cons v D ih =>
    rw [tot_cons, tot_cons, tot_cons, ih]
    split_ifs
    · abel
    · simp

theorem tot_congr {D : List (Vert C)} {f h : P → Bool} (w : Quad C → C) (e : ∀ v ∈ D, f v.1 = h v.1) : tot D f w = tot D h w := by
  unfold tot
  congr 1
  exact List.map_congr_left (fun v hv => by rw [e v hv])

/-- The points from which a half line passes below. -/
def reach (q : ℚ × ℚ) (r : Int) (p : P) : Bool := decide ((p.1 : ℚ) ≤ q.1 ∧ (p.2 : ℚ) + r * (q.1 - p.1) ≤ q.2)

theorem depth_tot (D : List (Vert C)) (q : ℚ × ℚ) :
    depth D q = tot D (reach q (-1)) Quad.n + tot D (reach q 0) Quad.z + tot D (reach q 1) Quad.p := by
  induction D with
  | nil => simp [depth]
  | cons v D ih =>
    have e : depth (v :: D) q = (ray q v.1 (-1) v.2.n + ray q v.1 0 v.2.z + ray q v.1 1 v.2.p) + depth D q := by simp [depth]
    rw [e, ih]
    simp only [tot_cons]
    unfold ray reach
    simp only [decide_eq_true_eq]
    abel

theorem sumOn_rays (f : Line → Bool) (D : List (Vert C)) : sumOn f (rays D) =
    tot D (fun p => f (lineOf p (-1))) Quad.n + tot D (fun p => f (lineOf p 0)) Quad.z + tot D (fun p => f (lineOf p 1)) Quad.p := by
  induction D with
  | nil => simp [rays]
  | cons v D ih =>
    have e : rays (v :: D) = [(lineOf v.1 (-1), v.2.n), (lineOf v.1 0, v.2.z), (lineOf v.1 1, v.2.p)] ++ rays D := by simp [rays]
    rw [e, sumOn_append, ih]
    simp only [sumOn_cons, sumOn_nil, tot_cons]
    abel

theorem under_line (q : ℚ × ℚ) (p : P) (r : Int) : (decide ((p.1 : ℚ) ≤ q.1) && under q (lineOf p r)) = reach q r p := by
  unfold under reach lineQ lineOf
  simp only
  rw [Bool.eq_iff_iff]
  simp only [Bool.and_eq_true, decide_eq_true_eq]
  push_cast
  constructor
  · rintro ⟨h1, h2⟩; exact ⟨h1, by linarith⟩
  · rintro ⟨h1, h2⟩; exact ⟨h1, by linarith⟩

/-- The depth in the terms of the scanline. -/
theorem depth_rays (D : List (Vert C)) (q : ℚ × ℚ) :
    depth D q = sumOn (under q) (rays (D.filter (fun v => decide ((v.1.1 : ℚ) ≤ q.1)))) := by
  rw [sumOn_rays, depth_tot]
  have h := fun (r : Int) (w : Quad C → C) => tot_filter D (fun p => under q (lineOf p r)) (fun p => decide ((p.1 : ℚ) ≤ q.1)) w
  rw [h, h, h]
  simp only [under_line]

end tot

/-- The total of the counts of one slope in the output. -/
def osum (out : List V45) (f : P → Bool) (r : Int) : Int :=
  (out.map (fun v => if v.rise = r ∧ f v.pt = true then v.count else 0)).sum

@[simp] theorem osum_nil (f : P → Bool) (r : Int) : osum [] f r = 0 := rfl
@[simp] theorem osum_cons (v : V45) (out : List V45) (f : P → Bool) (r : Int) :
    osum (v :: out) f r = (if v.rise = r ∧ f v.pt = true then v.count else 0) + osum out f r := by simp [osum]
@[simp] theorem osum_append (a b : List V45) (f : P → Bool) (r : Int) : osum (a ++ b) f r = osum a f r + osum b f r := by simp [osum]
theorem osum_perm {a b : List V45} (h : a.Perm b) (f : P → Bool) (r : Int) : osum a f r = osum b f r := (h.map _).sum_eq

/-- The slopes of events. -/
def Rise (v : V45) : Prop := v.rise = -1 ∨ v.rise = 0 ∨ v.rise = 1 ∨ v.rise = 2

theorem sumOn_oRays (f : Line → Bool) {out : List V45} (h : ∀ v ∈ out, Rise v) : sumOn f (oRays out) =
    osum out (fun p => f (lineOf p (-1))) (-1) + osum out (fun p => f (lineOf p 0)) 0 + osum out (fun p => f (lineOf p 1)) 1 := by
  induction out with
  | nil => simp [oRays]
  | cons v out ih =>
    have ih' := ih (fun u hu => h u (List.mem_cons_of_mem _ hu))
    have hv := h v List.mem_cons_self
    have e : sumOn f (oRays (v :: out)) = (if v.rise ≠ 2 ∧ f (lineOf v.pt v.rise) = true then v.count else 0) + sumOn f (oRays out) := by
      unfold oRays
      by_cases c : v.rise = 2
      · rw [List.filter_cons_of_neg (by simpa using c)]; simp [c]
      · rw [List.filter_cons_of_pos (by simpa using c)]; simp [c]
    rw [e, ih']
    simp only [osum_cons]
    unfold Rise at hv
    rcases hv with c | c | c | c <;> simp [c] <;> ring

theorem osum_filter (out : List V45) (h f : P → Bool) (r : Int) :
    osum (out.filter (fun v => h v.pt)) f r = osum out (fun p => h p && f p) r := by
  induction out with
  | nil => rfl
  | cons v D ih =>
    by_cases c : h v.pt = true
    · rw [List.filter_cons_of_pos (by simpa using c), osum_cons, osum_cons, ih]; simp [c]
    · rw [List.filter_cons_of_neg (by simpa using c), osum_cons, ih]; simp [c]

theorem bal_osum {out : List V45} (h : ∀ v ∈ out, Rise v) (pt : P) :
    bal out pt = osum out (fun a => decide (a = pt)) (-1) + osum out (fun a => decide (a = pt)) 0 +
      osum out (fun a => decide (a = pt)) 1 - osum out (fun a => decide (a = pt)) 2 := by
  induction out with
  | nil => simp [bal]
  | cons v out ih =>
    have ih' := ih (fun u hu => h u (List.mem_cons_of_mem _ hu))
    have hv := h v List.mem_cons_self
    have e : bal (v :: out) pt = (if v.pt = pt then (if v.rise = 2 then -v.count else v.count) else 0) + bal out pt := by simp [bal]
    rw [e, ih']
    simp only [osum_cons, decide_eq_true_eq]
    unfold Rise at hv
    by_cases cp : v.pt = pt
    · rcases hv with c | c | c | c <;> simp [c, cp] <;> ring
    · simp [cp]

/-! ### Collecting the events -/

/-- Data and events agree. -/
def Same (D : List VC) (out : List V45) : Prop :=
  ∀ f, tot D f Quad.n = osum out f (-1) ∧ tot D f Quad.z = osum out f 0 ∧ tot D f Quad.p = osum out f 1 ∧ tot D f Quad.v = osum out f 2

theorem Same.perm {D : List VC} {a b : List V45} (h : Same D a) (p : a.Perm b) : Same D b := by
  intro f
  obtain ⟨h1, h2, h3, h4⟩ := h f
  rw [osum_perm p] at h1 h2 h3 h4
  exact ⟨h1, h2, h3, h4⟩

theorem single_add (r c : Int) (q : Quad Int) (hr : r = -1 ∨ r = 0 ∨ r = 1 ∨ r = 2) :
    (q.add (single r c)).n = q.n + (if r = -1 then c else 0) ∧ (q.add (single r c)).z = q.z + (if r = 0 then c else 0) ∧
    (q.add (single r c)).p = q.p + (if r = 1 then c else 0) ∧ (q.add (single r c)).v = q.v + (if r = 2 then c else 0) := by
  unfold single Quad.add
  rcases hr with rfl | rfl | rfl | rfl <;> simp

theorem single_eq (r c : Int) (hr : r = -1 ∨ r = 0 ∨ r = 1 ∨ r = 2) :
    (single r c).n = (if r = -1 then c else 0) ∧ (single r c).z = (if r = 0 then c else 0) ∧
    (single r c).p = (if r = 1 then c else 0) ∧ (single r c).v = (if r = 2 then c else 0) := by
  unfold single
  rcases hr with rfl | rfl | rfl | rfl <;> simp

theorem drop_same {s : Acc} {out : List V45} (h : Same s.res out) : Same s.drop.res out := by
  unfold Acc.drop
  cases hr : s.res with
  | nil => rw [hr] at h; simpa [hr] using h
  | cons v r =>
    simp only
    split_ifs with c
    · intro f
      have := h f
      rw [hr] at this
      simpa [c.2] using this
    · exact h

theorem put_same {s : Acc} {out : List V45} {e : V45} (hr : Rise e) (h : Same s.res out) : Same (s.put e).res (out ++ [e]) := by
  unfold Acc.put
  cases hs : s.res with
  | nil =>
    rw [hs] at h
    intro f
    obtain ⟨h1, h2, h3, h4⟩ := h f
    obtain ⟨s1, s2, s3, s4⟩ := single_eq e.rise e.count hr
    simp only [tot_nil] at h1 h2 h3 h4
    simp only [tot_cons, tot_nil, osum_append, osum_cons, osum_nil, ← h1, ← h2, ← h3, ← h4, s1, s2, s3, s4]
    refine ⟨?_, ?_, ?_, ?_⟩ <;> · by_cases c1 : f e.pt = true <;> simp [c1]
  | cons v r =>
    simp only
    by_cases c : v.1 = e.pt
    · rw [if_pos c]
      rw [hs] at h
      intro f
      obtain ⟨h1, h2, h3, h4⟩ := h f
      obtain ⟨s1, s2, s3, s4⟩ := single_add e.rise e.count v.2 hr
      simp only [tot_cons] at h1 h2 h3 h4
      simp only [tot_cons, osum_append, osum_cons, osum_nil, ← h1, ← h2, ← h3, ← h4, s1, s2, s3, s4, c]
      refine ⟨?_, ?_, ?_, ?_⟩ <;> · by_cases c1 : f e.pt = true <;> simp [c1]; try ring
    · rw [if_neg c]
      have h' := drop_same h
      intro f
      obtain ⟨h1, h2, h3, h4⟩ := h' f
      obtain ⟨s1, s2, s3, s4⟩ := single_eq e.rise e.count hr
      simp only [tot_cons, osum_append, osum_cons, osum_nil, h1, h2, h3, h4, s1, s2, s3, s4]
      refine ⟨?_, ?_, ?_, ?_⟩ <;> · by_cases c1 : f e.pt = true <;> simp [c1]; try ring

/-- Strictly before in the order of points. -/
def PLt (p q : P) : Prop := p.1 < q.1 ∨ (p.1 = q.1 ∧ p.2 < q.2)

/-- While the events of a call are being collected. -/
structure Open (s : Acc) : Prop where
  sorted : s.res.Pairwise (fun v w => PLt w.1 v.1)
  manh : s.manh = true ↔ ∀ v ∈ s.res.tail, is45 v.2 = false
  ne : s.res ≠ []

/-- Between two calls. -/
structure Shut (s : Acc) : Prop where
  sorted : s.res.Pairwise (fun v w => PLt w.1 v.1)
  all : s.manh = true → ∀ v ∈ s.res.tail, is45 v.2 = false
  some : s.manh = false → ∃ v ∈ s.res, is45 v.2 = true

theorem drop_cases (s : Acc) : s.drop = s ∨ ∃ v r, s.res = v :: r ∧ v.2 = ⟨0, 0, 0, 0⟩ ∧ s.drop = { s with res := r } := by
  unfold Acc.drop
  cases hs : s.res with
  | nil => left; rfl
  | cons v r =>
    simp only
    split_ifs with c
    · right; exact ⟨v, r, rfl, c.2, rfl⟩
    · left; rfl

theorem Open.shut {s : Acc} (h : Open s) : Shut s.drop := by
  rcases drop_cases s with e | ⟨v, r, hs, hv, e⟩
  · rw [e]
    refine ⟨h.sorted, h.manh.1, fun hm => ?_⟩
    by_contra hc
    push Not at hc
    have : s.manh = true := h.manh.2 (fun v hv => by simpa using hc v (List.mem_of_mem_tail hv))
    rw [this] at hm; simp at hm
  · rw [e]
    have hsr := h.sorted
    have hm := h.manh
    rw [hs] at hsr hm
    simp only [List.tail_cons] at hm
    refine ⟨(List.pairwise_cons.1 hsr).2, fun hh v hv => hm.1 hh v (List.mem_of_mem_tail hv), fun hh => ?_⟩
    by_contra hc
    push Not at hc
    have : s.manh = true := hm.2 (fun v hv => by simpa using hc v hv)
    simp only at hh
    rw [this] at hh; simp at hh

theorem put_new {s : Acc} {e : V45} (hs : s.res.Pairwise (fun v w => PLt w.1 v.1)) (hlt : ∀ v ∈ s.res, PLt v.1 e.pt)
    (hm : (s.manh = true ∧ (∀ v ∈ s.res.head?, is45 v.2 = false)) ↔ ∀ v ∈ s.res, is45 v.2 = false) : Open (s.put e) := by
  unfold Acc.put
  cases hr : s.res with
  | nil =>
    rw [hr] at hm
    refine ⟨by simp, ?_, by simp⟩
    simp only [List.tail_cons]
    simpa using hm
  | cons v r =>
    rw [hr] at hs hlt hm
    have hv := hlt v List.mem_cons_self
    have hne : v.1 ≠ e.pt := by
      intro h; rw [h] at hv; unfold PLt at hv; omega
    simp only
    rw [if_neg hne]
    have hdrop : s.drop.res = v :: r ∨ (s.drop.res = r ∧ v.2 = ⟨0, 0, 0, 0⟩) := by
      rcases drop_cases s with h | ⟨v', r', h1, h2, h3⟩
      · left; rw [h, hr]
      · rw [hr] at h1; injection h1 with a b; subst a; subst b
        right; rw [h3]; exact ⟨rfl, h2⟩
    have hz : v.2 = ⟨0, 0, 0, 0⟩ → is45 v.2 = false := fun h => by rw [h]; rfl
    have hall : (∀ u ∈ s.drop.res, is45 u.2 = false) ↔ ∀ u ∈ v :: r, is45 u.2 = false := by
      rcases hdrop with h | ⟨h, h0⟩
      · rw [h]
      · rw [h]
        constructor
        · intro h1 u hu
          rcases List.mem_cons.1 hu with rfl | hu
          · exact hz h0
          · exact h1 u hu
        · intro h1 u hu; exact h1 u (List.mem_cons_of_mem _ hu)
    refine ⟨?_, ?_, by simp⟩
    · refine List.pairwise_cons.2 ⟨?_, ?_⟩
      · intro u hu
        rcases hdrop with h | ⟨h, -⟩
        · rw [h] at hu; exact hlt u hu
        · rw [h] at hu; exact hlt u (List.mem_cons_of_mem _ hu)
      · rcases hdrop with h | ⟨h, -⟩
        · rw [h]; exact hs
        · rw [h]; exact (List.pairwise_cons.1 hs).2
    · simp only [List.tail_cons]
      rw [hall, ← hm]
      simp

theorem put_open {s : Acc} {e : V45} (h : Open s) (hle : ∀ v ∈ s.res.head?, v.1 = e.pt ∨ PLt v.1 e.pt) : Open (s.put e) := by
  have hne := h.ne
  cases hr : s.res with
  | nil => exact absurd hr hne
  | cons v r =>
    have hs := h.sorted
    have hm := h.manh
    rw [hr] at hs hm hle
    simp only [List.tail_cons] at hm
    by_cases c : v.1 = e.pt
    · unfold Acc.put
      rw [hr]
      simp only
      rw [if_pos c]
      exact ⟨List.pairwise_cons.2 ⟨(List.pairwise_cons.1 hs).1, (List.pairwise_cons.1 hs).2⟩, hm, by simp⟩
    · have hlt : PLt v.1 e.pt := by
        rcases hle v (by simp) with h | h
        · exact absurd h c
        · exact h
      refine put_new h.sorted ?_ ?_
      · rw [hr]
        intro u hu
        rcases List.mem_cons.1 hu with rfl | hu
        · exact hlt
        · have := (List.pairwise_cons.1 hs).1 u hu; unfold PLt at this hlt ⊢; omega
      · rw [hr, hm]
        simp
        tauto

theorem put_head (s : Acc) (e : V45) : ∃ r c, (s.put e).res = (e.pt, c) :: r := by
  unfold Acc.put
  cases s.res with
  | nil => exact ⟨[], _, rfl⟩
  | cons v r =>
    simp only
    split_ifs with c
    · rw [c]; exact ⟨_, _, rfl⟩
    · exact ⟨_, _, rfl⟩

theorem fold_open : ∀ (E : List V45) (s : Acc), Open s → E.Pairwise (fun a b => a.pt = b.pt ∨ PLt a.pt b.pt) →
    (∀ e ∈ E, ∀ v ∈ s.res.head?, v.1 = e.pt ∨ PLt v.1 e.pt) → Open (E.foldl Acc.put s) := by
  intro E
  induction E with
  | nil => intro s h _ _; exact h
  | cons e E ih =>
    intro s h hs hle
    obtain ⟨h1, h2⟩ := List.pairwise_cons.1 hs
    rw [List.foldl_cons]
    refine ih _ (put_open h (hle e List.mem_cons_self)) h2 ?_
    intro e' he' v hv
    obtain ⟨r, c, hr⟩ := put_head s e
    rw [hr] at hv
    simp at hv
    rw [← hv]
    exact h1 e' he'

theorem fold_same : ∀ (E : List V45) (s : Acc) (out : List V45), (∀ e ∈ E, Rise e) → Same s.res out →
    Same (E.foldl Acc.put s).res (out ++ E) := by
  intro E
  induction E with
  | nil => intro s out _ h; simpa using h
  | cons e E ih =>
    intro s out hr h
    rw [List.foldl_cons]
    have := ih (s.put e) (out ++ [e]) (fun u hu => hr u (List.mem_cons_of_mem _ hu)) (put_same (hr e List.mem_cons_self) h)
    rwa [List.append_assoc] at this

theorem sortV45_perm (L : List V45) : (sortV45 L).Perm L := List.perm_insertionSort _ _

theorem sortV45_sorted (L : List V45) : (sortV45 L).Pairwise (fun a b => a.pt = b.pt ∨ PLt a.pt b.pt) := by
  have ht : ∀ a b : V45, ltV45 b a = false ∨ ltV45 a b = false := by
    intro a b
    simp only [ltV45, Bool.or_eq_false_iff, Bool.and_eq_false_iff, decide_eq_false_iff_not, beq_eq_false_iff_ne, ne_eq]
    omega
  have htr : ∀ a b c : V45, ltV45 b a = false → ltV45 c b = false → ltV45 c a = false := by
    intro a b c
    simp only [ltV45, Bool.or_eq_false_iff, Bool.and_eq_false_iff, decide_eq_false_iff_not, beq_eq_false_iff_ne, ne_eq]
    omega
  haveI : Std.Total (fun a b : V45 => ltV45 b a = false) := ⟨ht⟩
  haveI : IsTrans V45 (fun a b : V45 => ltV45 b a = false) := ⟨fun a b c => htr a b c⟩
  refine (List.pairwise_insertionSort (fun a b : V45 => ltV45 b a = false) L).imp ?_
  intro a b h
  simp only [ltV45, Bool.or_eq_false_iff, Bool.and_eq_false_iff, decide_eq_false_iff_not, beq_eq_false_iff_ne, ne_eq] at h
  unfold PLt
  by_cases c : a.pt.1 = b.pt.1 ∧ a.pt.2 = b.pt.2
  · exact Or.inl (Prod.ext c.1 c.2)
  · right; omega

theorem putAll_spec {s : Acc} {out t : List V45} (h : Shut s) (hr : ∀ e ∈ t, Rise e) (hsame : Same s.res out)
    (hlt : ∀ v ∈ s.res, ∀ e ∈ t, PLt v.1 e.pt) : Shut (s.putAll t) ∧ Same (s.putAll t).res (out ++ t) := by
  have hp := sortV45_perm t
  have hs := sortV45_sorted t
  unfold Acc.putAll
  constructor
  · cases hE : sortV45 t with
    | nil =>
      rw [hE] at hp
      have : (({ s with cnt := 0 } : Acc).drop) = { s with cnt := 0 } := by
        rcases drop_cases { s with cnt := 0 } with e | ⟨v, r, h1, h2, h3⟩
        · exact e
        · unfold Acc.drop
          simp only at h1 ⊢
          rw [h1]; simp
      rw [List.foldl_nil, this]
      exact ⟨h.sorted, h.all, h.some⟩
    | cons e E =>
      have hmem : ∀ u ∈ e :: E, u ∈ t := fun u hu => hp.mem_iff.1 (by rw [hE]; exact hu)
      rw [hE] at hs
      obtain ⟨h1, h2⟩ := List.pairwise_cons.1 hs
      rw [List.foldl_cons]
      apply Open.shut
      refine fold_open E _ (put_new ?_ ?_ ?_) h2 ?_
      · exact h.sorted
      · intro v hv; exact hlt v hv e (hmem e List.mem_cons_self)
      · simp only
        constructor
        · rintro ⟨h3, h4⟩ v hv
          cases hr' : s.res with
          | nil => rw [hr'] at hv; simp at hv
          | cons a r =>
            have h5 := h.all h3
            rw [hr'] at hv h4 h5
            rcases List.mem_cons.1 hv with rfl | hv
            · exact h4 v (by simp)
            · exact h5 v (by simpa using hv)
        · intro h3
          refine ⟨?_, fun v hv => h3 v (List.mem_of_mem_head? hv)⟩
          by_contra hc
          obtain ⟨v, hv, hv'⟩ := h.some (by simpa using hc)
          rw [h3 v hv] at hv'; simp at hv'
      · intro e' he' v hv
        obtain ⟨r, c, hr'⟩ := put_head { s with cnt := 0 } e
        rw [hr'] at hv
        simp at hv
        rw [← hv]
        exact h1 e' he'
  · apply drop_same
    have := fold_same (sortV45 t) { s with cnt := 0 } out (fun e he => hr e (hp.mem_iff.1 he)) hsame
    exact this.perm (List.Perm.append_left out hp)

theorem finish_spec {s : Acc} (h : Shut s) : (finish s).1 = s.res.reverse ∧
    ((finish s).2 = true ↔ ∀ v ∈ (finish s).1, is45 v.2 = false) := by
  refine ⟨rfl, ?_⟩
  unfold finish
  simp only [List.mem_reverse, Bool.and_eq_true]
  cases hr : s.res with
  | nil =>
    simp only [List.not_mem_nil, false_imp_iff, implies_true, iff_true, and_true]
    by_contra hc
    obtain ⟨v, hv, -⟩ := h.some (by simpa using hc)
    rw [hr] at hv; simp at hv
  | cons a r =>
    have h1 := h.all
    have h2 := h.some
    rw [hr] at h1 h2
    simp only [List.tail_cons, Bool.not_eq_true'] at h1 ⊢
    constructor
    · rintro ⟨h3, h4⟩ v hv
      rcases List.mem_cons.1 hv with rfl | hv
      · exact h4
      · exact h1 h3 v hv
    · intro h3
      refine ⟨?_, h3 a List.mem_cons_self⟩
      by_contra hc
      obtain ⟨v, hv, hv'⟩ := h2 (by simpa using hc)
      rw [h3 v hv] at hv'; simp at hv'

theorem put_pts {s : Acc} {e : V45} {T : P → Prop} (h : ∀ v ∈ s.res, T v.1) (he : T e.pt) : ∀ v ∈ (s.put e).res, T v.1 := by
  have hd : ∀ v ∈ s.drop.res, T v.1 := by
    rcases drop_cases s with h' | ⟨a, r, h1, h2, h3⟩
    · rw [h']; exact h
    · rw [h3]; intro v hv; exact h v (by rw [h1]; exact List.mem_cons_of_mem _ hv)
  unfold Acc.put
  cases hr : s.res with
  | nil => intro v hv; simp at hv; rw [hv]; exact he
  | cons a r =>
    rw [hr] at h
    simp only
    split_ifs with c
    · intro v hv
      rcases List.mem_cons.1 hv with rfl | hv
      · exact h a List.mem_cons_self
      · exact h v (List.mem_cons_of_mem _ hv)
    · intro v hv
      rcases List.mem_cons.1 hv with rfl | hv
      · exact he
      · exact hd v hv

theorem putAll_pts {s : Acc} {t : List V45} {T : P → Prop} (h : ∀ v ∈ s.res, T v.1) (ht : ∀ e ∈ t, T e.pt) :
    ∀ v ∈ (s.putAll t).res, T v.1 := by
  have hf : ∀ (E : List V45) (s : Acc), (∀ v ∈ s.res, T v.1) → (∀ e ∈ E, T e.pt) → ∀ v ∈ (E.foldl Acc.put s).res, T v.1 := by
    intro E
    induction E with
    | nil => intro s h _; exact h
    | cons e E ih =>
      intro s h hE
      exact ih _ (put_pts h (hE e List.mem_cons_self)) (fun e' h' => hE e' (List.mem_cons_of_mem _ h'))
  have h1 := hf (sortV45 t) { s with cnt := 0 } h (fun e he => ht e ((sortV45_perm t).mem_iff.1 he))
  unfold Acc.putAll
  rcases drop_cases (List.foldl Acc.put { s with cnt := 0 } (sortV45 t)) with h' | ⟨a, r, e1, e2, e3⟩
  · rw [h']; exact h1
  · rw [e3]; intro v hv; exact h1 v (by rw [e1]; exact List.mem_cons_of_mem _ hv)

theorem putAll_nil (s : Acc) : (s.putAll []).res = s.res := by
  unfold Acc.putAll sortV45
  rw [List.insertionSort_nil, List.foldl_nil]
  rcases drop_cases { s with cnt := 0 } with e | ⟨v, r, h1, h2, h3⟩
  · rw [e]
  · unfold Acc.drop
    simp only at h1 ⊢
    rw [h1]; simp

/-! ### The loop over the vertices -/

/-- The scanline, the result and the bounds between two abscissas. -/
structure RI (g : C → Bool) (EV : Prop) (umin M : Int) (st : St C) (acc : Acc) (done : List (Vert C)) (out : List V45) : Prop where
  inv : Inv g EV st done out
  shut : Shut acc
  same : Same acc.res out
  le : ∀ v ∈ acc.res, v.1.1 ≤ st.x
  ge : ∀ v ∈ acc.res, umin ≤ v.1.1
  lo : umin ≤ st.x
  hi : st.x ≤ M

theorem InOK.split {a b : List (Vert C)} (h : InOK EV (a ++ b)) (hlt : ∀ u ∈ a, ∀ w ∈ b, u.1.1 < w.1.1) : InOK EV a ∧ InOK EV b := by
  obtain ⟨s1, s2, -⟩ := List.pairwise_append.1 h.sorted
  have key : ∀ X, a.filter (fun v => decide (v.1.1 = X)) = [] ∨ b.filter (fun v => decide (v.1.1 = X)) = [] := by
    intro X
    by_contra hc
    push Not at hc
    obtain ⟨u, hu⟩ := List.exists_mem_of_ne_nil _ hc.1
    obtain ⟨w, hw⟩ := List.exists_mem_of_ne_nil _ hc.2
    simp only [List.mem_filter, decide_eq_true_eq] at hu hw
    have := hlt u hu.1 w hw.1
    omega
  refine ⟨⟨s1, fun X => ?_⟩, ⟨s2, fun X => ?_⟩⟩
  · have hc := h.cols X
    rw [List.filter_append] at hc
    rcases key X with k | k
    · rw [k]; exact ColIn.nil X EV
    · rwa [k, List.append_nil] at hc
  · have hc := h.cols X
    rw [List.filter_append] at hc
    rcases key X with k | k
    · rwa [k, List.nil_append] at hc
    · rw [k]; exact ColIn.nil X EV

theorem flush_spec {umin M : Int} (h0 : g 0 = false) {s : Run C} {done : List (Vert C)} {out : List V45}
    (i : RI g EV umin M s.st s.acc done out) (hin : InOK EV s.evIn) (hM : ∀ v ∈ s.evIn, v.1.1 ≤ M)
    (hfr : (∀ v ∈ s.evIn, s.st.x < v.1.1) ∨ (s.acc.res = [] ∧ Fresh s.st s.evIn)) :
    (∃ t out', s.flush g = .ok t ∧ RI g EV umin M t.st t.acc (done ++ s.evIn) out' ∧
      ∀ X, s.st.x ≤ X → (∀ v ∈ s.evIn, v.1.1 ≤ X) → t.st.x ≤ X) ∨
    (s.flush g = .error .precision ∧ ¬ EV) := by
  have hf : Fresh s.st s.evIn := by
    rcases hfr with h | h
    · exact Or.inl h
    · exact h.2
  have happ := scan_app g out s.st s.evIn []
  rw [List.append_nil] at happ
  unfold Run.flush
  rcases scan_spec h0 i.inv hin hf with ⟨st', o', s1, s2, s3, ⟨t, s4, s5⟩⟩ | ⟨s1, s2⟩
  · left
    rw [s1] at happ
    cases hsc : scan (opFn g) s.st s.evIn [] with
    | error e => rw [hsc] at happ; simp [Except.map] at happ
    | ok z =>
      rw [hsc] at happ
      simp only [Except.map, Except.ok.injEq, Prod.mk.injEq] at happ
      obtain ⟨e1, e2⟩ := happ
      obtain ⟨zst, zo⟩ := z
      simp only at e1 e2
      subst e1
      have ezo : zo = t := by
        rw [e2] at s4; exact List.append_cancel_left s4
      subst ezo
      subst e2
      have hr : ∀ e ∈ zo, Rise e := fun e he => (s2.outx e (List.mem_append_right _ he)).2
      have hlt : ∀ v ∈ s.acc.res, ∀ e ∈ zo, PLt v.1 e.pt := by
        intro v hv e he
        rcases hfr with h | h
        · have h1 := (s5 e he).2 h
          have h2 := i.le v hv
          left; omega
        · rw [h.1] at hv; simp at hv
      obtain ⟨p1, p2⟩ := putAll_spec i.shut hr i.same hlt
      refine ⟨_, out ++ zo, rfl, ⟨s2, p1, p2, ?_, ?_, ?_, ?_⟩, s3.1⟩
      · have hx' : s.st.x ≤ st'.x := s3.2
        exact putAll_pts (T := fun p => p.1 ≤ st'.x) (fun v hv => le_trans (i.le v hv) hx')
          (fun e he => (s2.outx e (List.mem_append_right _ he)).1)
      · exact putAll_pts (T := fun p => umin ≤ p.1) i.ge (fun e he => le_trans i.lo (s5 e he).1)
      · exact le_trans i.lo s3.2
      · exact s3.1 M i.hi hM
  · right
    rw [s1] at happ
    cases hsc : scan (opFn g) s.st s.evIn [] with
    | error e =>
      rw [hsc] at happ
      simp only [Except.map, Except.error.injEq] at happ
      subst happ
      exact ⟨rfl, s2⟩
    | ok z => rw [hsc] at happ; simp [Except.map] at happ

theorem flush_nil {s : Run C} (h : s.evIn = []) : s.flush g = .ok ⟨s.st, s.acc.putAll [], [], s.x⟩ := by
  unfold Run.flush
  rw [h]
  have : scan (opFn g) s.st [] [] = .ok (s.st, []) := by
    unfold scan; simp [scanLoop]
  rw [this]

theorem feed_spec {umin M : Int} (h0 : g 0 = false) : ∀ (vs : List (Vert C)) (s : Run C) (done : List (Vert C)) (out : List V45),
    RI g EV umin M s.st s.acc done out → InOK EV (s.evIn ++ vs) → (∀ v ∈ s.evIn ++ vs, v.1.1 ≤ M) →
    ((∀ v ∈ s.evIn ++ vs, s.st.x < v.1.1) ∨ (s.acc.res = [] ∧ Fresh s.st (s.evIn ++ vs))) →
    (s.evIn = [] ∨ ∃ X, s.x = some X ∧ ∀ u ∈ s.evIn, u.1.1 = X) →
    (∃ t out', s.feed g vs = .ok t ∧ RI g EV umin M t.st t.acc (done ++ (s.evIn ++ vs)) out') ∨
    (s.feed g vs = .error .precision ∧ ¬ EV) := by
  intro vs
  induction vs with
  | nil =>
    intro s done out i hin hM hfr _
    rw [List.append_nil] at hin hM hfr ⊢
    unfold Run.feed
    rcases flush_spec h0 i hin hM hfr with ⟨t, out', e, r, -⟩ | e
    · exact Or.inl ⟨t, out', e, r⟩
    · exact Or.inr e
  | cons v vs ih =>
    intro s done out i hin hM hfr hx
    unfold Run.feed
    by_cases c : s.x ≠ some v.1.1
    · rw [if_pos c]
      rcases hx with hx | ⟨X, hX, hall⟩
      · -- nothing has been read
        rw [flush_nil hx]
        simp only
        rw [hx, List.nil_append] at hin hM hfr
        have hr := ih ⟨s.st, s.acc.putAll [], [v], some v.1.1⟩ done out
          { inv := i.inv
            shut := (putAll_spec (t := []) i.shut (by simp) i.same (by simp)).1
            same := by rw [putAll_nil]; exact i.same
            le := by rw [putAll_nil]; exact i.le
            ge := by rw [putAll_nil]; exact i.ge
            lo := i.lo, hi := i.hi } hin hM (by simp only [putAll_nil]; exact hfr) (Or.inr ⟨v.1.1, rfl, by simp⟩)
        rw [hx]
        exact hr
      · have hvX : v.1.1 ≠ X := by
          intro h; rw [hX, h] at c; exact c rfl
        have hs := hin.sorted
        obtain ⟨-, hs2, hs3⟩ := List.pairwise_append.1 hs
        by_cases hemp : s.evIn = []
        · rw [flush_nil hemp]
          simp only
          rw [hemp, List.nil_append] at hin hM hfr
          have hr := ih ⟨s.st, s.acc.putAll [], [v], some v.1.1⟩ done out
            { inv := i.inv
              shut := (putAll_spec (t := []) i.shut (by simp) i.same (by simp)).1
              same := by rw [putAll_nil]; exact i.same
              le := by rw [putAll_nil]; exact i.le
              ge := by rw [putAll_nil]; exact i.ge
              lo := i.lo, hi := i.hi } hin hM (by simp only [putAll_nil]; exact hfr) (Or.inr ⟨v.1.1, rfl, by simp⟩)
          rw [hemp]
          exact hr
        · obtain ⟨u0, hu0⟩ := List.exists_mem_of_ne_nil _ hemp
          have hXv : X < v.1.1 := by
            have h1 := hs3 u0 hu0 v List.mem_cons_self
            have h2 := hall u0 hu0
            omega
          have hXall : ∀ w ∈ v :: vs, X < w.1.1 := by
            intro w hw
            rcases List.mem_cons.1 hw with rfl | hw
            · exact hXv
            · have := (List.pairwise_cons.1 hs2).1 w hw; omega
          obtain ⟨i1, i2⟩ := InOK.split hin (fun u hu w hw => by rw [hall u hu]; exact hXall w hw)
          have hle : s.st.x ≤ X := by
            rcases hfr with h | ⟨-, h | h⟩
            · have := h u0 (by simp [hu0]); rw [hall u0 hu0] at this; omega
            · have := h u0 (by simp [hu0]); rw [hall u0 hu0] at this; omega
            · have := h.2.2 u0 (by simp [hu0]); rw [hall u0 hu0] at this; omega
          have hfr' : (∀ v ∈ s.evIn, s.st.x < v.1.1) ∨ (s.acc.res = [] ∧ Fresh s.st s.evIn) := by
            rcases hfr with h | ⟨h1, h | h⟩
            · left; intro w hw; exact h w (by simp [hw])
            · left; intro w hw; exact h w (by simp [hw])
            · right; exact ⟨h1, Or.inr ⟨h.1, h.2.1, fun w hw => h.2.2 w (by simp [hw])⟩⟩
          rcases flush_spec h0 i i1 (fun w hw => hM w (by simp [hw])) hfr' with ⟨t, out', e, r, hb⟩ | ⟨e, ne⟩
          · rw [e]
            simp only
            have htX : t.st.x ≤ X := hb X hle (fun w hw => le_of_eq (hall w hw))
            have := ih { t with evIn := [v], x := some v.1.1 } (done ++ s.evIn) out' r i2
              (fun w hw => hM w (List.mem_append_right _ hw))
              (Or.inl (fun w hw => by have := hXall w hw; simp only; omega)) (Or.inr ⟨v.1.1, rfl, by simp⟩)
            rw [List.append_assoc] at this
            exact this
          · rw [e]; exact Or.inr ⟨rfl, ne⟩
    · rw [if_neg c]
      push Not at c
      have e : s.evIn ++ [v] ++ vs = s.evIn ++ v :: vs := by simp
      have := ih { s with evIn := s.evIn ++ [v] } done out i (by rw [← e] at hin; exact hin) (by rw [← e] at hM; exact hM)
        (by rw [← e] at hfr; exact hfr) (Or.inr ⟨v.1.1, c, by
          intro u hu
          rcases List.mem_append.1 hu with h | h
          · rcases hx with hx | ⟨X, hX, hall⟩
            · rw [hx] at h; simp at h
            · rw [c] at hX; injection hX with hX; rw [hall u h, hX]
          · simp at h; rw [h]⟩)
      simp only at this
      rw [e] at this
      exact this

/-! ### The end of the sweep -/

theorem deltas_zero : ∀ (L : List (El C)) (b : C), L.Pairwise (fun a b => a.line ≠ b.line) →
    (∀ l : Line, sumOn (fun a => decide (a = l)) (deltas id b L) = 0) → ∀ e ∈ L, e.count = b := by
  intro L
  induction L with
  | nil => intro b _ _ e he; simp at he
  | cons a L ih =>
    intro b hp hs
    obtain ⟨h1, h2⟩ := List.pairwise_cons.1 hp
    have ha : a.count = b := by
      have := hs a.line
      simp only [deltas, sumOn_cons, decide_true, if_true] at this
      rw [sumOn_deltas_none _ _ _ _ (fun e he => by simpa using fun h => h1 e he h.symm)] at this
      simp only [id, add_zero] at this
      exact sub_eq_zero.1 this
    intro e he
    rcases List.mem_cons.1 he with rfl | he
    · exact ha
    · rw [← ha]
      refine ih a.count h2 (fun l => ?_) e he
      have := hs l
      simp only [deltas, sumOn_cons, ha, id, sub_self, ite_self, zero_add] at this
      rw [ha]; exact this

theorem deltas_const {A : Type} [AddCommGroup A] (φ : C → A) (f : Line → Bool) : ∀ (L : List (El C)) (b : C),
    (∀ e ∈ L, e.count = b) → sumOn f (deltas φ b L) = 0 := by
  intro L
  induction L with
  | nil => intro b _; rfl
  | cons a L ih =>
    intro b h
    have ha := h a List.mem_cons_self
    simp only [deltas, sumOn_cons]
    rw [ha, ih b (fun e he => h e (List.mem_cons_of_mem _ he))]
    simp

omit [DecidableEq C] in
/-- The lines of closed data carry no weight. -/
theorem closed_lines {vs : List (Vert C)} (hc : Closed vs) (l : Line) :
    sumOn (fun a => decide (a = l)) (rays vs) = 0 := by
  rw [sumOn_rays]
  obtain ⟨r, k⟩ := l
  unfold lineOf
  have e1 : tot vs (fun p => decide ((-1, p.2 - -1 * p.1) = ((r, k) : Line))) Quad.n = 0 := by
    by_cases c : r = -1
    · rw [← hc.down k]; refine tot_congr _ (fun v _ => ?_)
      rw [c, decide_eq_decide]; simp only [Prod.mk.injEq, true_and]; omega
    · rw [tot_congr (h := fun _ => false)]
      · simp [tot]
      · intro v _; simp only [Prod.mk.injEq, decide_eq_false_iff_not]; omega
  have e2 : tot vs (fun p => decide ((0, p.2 - 0 * p.1) = ((r, k) : Line))) Quad.z = 0 := by
    by_cases c : r = 0
    · rw [← hc.flat k]; refine tot_congr _ (fun v _ => ?_)
      rw [c, decide_eq_decide]; simp only [Prod.mk.injEq, true_and]; omega
    · rw [tot_congr (h := fun _ => false)]
      · simp [tot]
      · intro v _; simp only [Prod.mk.injEq, decide_eq_false_iff_not]; omega
  have e3 : tot vs (fun p => decide ((1, p.2 - 1 * p.1) = ((r, k) : Line))) Quad.p = 0 := by
    by_cases c : r = 1
    · rw [← hc.up k]; refine tot_congr _ (fun v _ => ?_)
      rw [c, decide_eq_decide]; simp only [Prod.mk.injEq, true_and]; omega
    · rw [tot_congr (h := fun _ => false)]
      · simp [tot]
      · intro v _; simp only [Prod.mk.injEq, decide_eq_false_iff_not]; omega
  rw [e1, e2, e3]; simp

/-- After the last vertex of closed data the scanline carries nothing. -/
theorem end_counts {st : St C} {vs : List (Vert C)} {out : List V45} (i : Inv g EV st vs out) (hc : Closed vs) :
    (∀ f, sumOn f (rays vs) = 0) ∧ ∀ f, sumOn f (oRays out) = 0 := by
  have hL : ∀ e ∈ st.L, e.count = 0 := by
    refine deltas_zero st.L 0 (i.dn.good.sorted.imp ?_) (fun l => ?_)
    · intro a b h e
      have h1 : a.eval st.x = b.eval st.x := by rw [El.eval_line, El.eval_line, e]
      have h2 : a.rise = b.rise := by rw [← line_fst a, ← line_fst b, e]
      unfold LtA at h; omega
    · rw [← i.dn.rin, closed_lines hc l]
  exact ⟨fun f => by rw [i.dn.rin, deltas_const id f st.L 0 hL], fun f => by rw [i.dn.rout, deltas_const (gi g) f st.L 0 hL]⟩

/-- At the end the result is right everywhere. -/
theorem end_hist {st : St C} {vs : List (Vert C)} {out : List V45} (h0 : g 0 = false) (i : Inv g EV st vs out) (hc : Closed vs)
    (q : ℚ × ℚ) : Hist g vs out q := by
  by_cases c : q.1 < st.x
  · exact i.hist q c
  · push Not at c
    obtain ⟨h1, h2⟩ := end_counts i hc
    unfold Hist
    rw [filter_le_all (f := fun v : V45 => v.pt.1) (fun v hv => (i.outx v hv).1) c,
      filter_le_all (f := fun v : Vert C => v.1.1) i.inx c, h1, h2]
    simp [gi, h0]

theorem same_depth {D : List VC} {out : List V45} (h : Same D out) (hr : ∀ v ∈ out, Rise v) (q : ℚ × ℚ) :
    depth D q = sumOn (under q) (oRays (out.filter (fun v => decide ((v.pt.1 : ℚ) ≤ q.1)))) := by
  rw [sumOn_oRays _ (fun v hv => hr v (List.mem_filter.1 hv).1), depth_tot]
  have hf := fun (r : Int) => osum_filter out (fun p => decide ((p.1 : ℚ) ≤ q.1)) (fun p => under q (lineOf p r))
  rw [hf, hf, hf]
  simp only [under_line]
  rw [(h _).1, (h _).2.1, (h _).2.2.1]

omit [DecidableEq C] in
/-- Far up, everything to the left counts. -/
theorem depth_top (D : List (Vert C)) (X : ℚ) : ∃ Y : ℚ, ∀ y, Y ≤ y →
    depth D (X, y) = tot D (fun p => decide ((p.1 : ℚ) ≤ X)) (fun q => q.n + q.z + q.p) := by
  induction D with
  | nil => exact ⟨0, fun y _ => by simp [depth]⟩
  | cons v D ih =>
    obtain ⟨Y, hY⟩ := ih
    refine ⟨max Y (v.1.2 + |X - v.1.1|), fun y hy => ?_⟩
    have hy1 := le_trans (le_max_left _ _) hy
    have hy2 := le_trans (le_max_right _ _) hy
    have e : depth (v :: D) (X, y) = (ray (X, y) v.1 (-1) v.2.n + ray (X, y) v.1 0 v.2.z + ray (X, y) v.1 1 v.2.p) + depth D (X, y) := by
      simp [depth]
    rw [e, hY y hy1, tot_cons]
    congr 1
    unfold ray
    by_cases c : (v.1.1 : ℚ) ≤ X
    · have h1 : X - v.1.1 ≤ |X - v.1.1| := le_abs_self _
      have h2 : 0 ≤ |X - v.1.1| := abs_nonneg _
      have h3 : 0 ≤ X - v.1.1 := by linarith
      rw [if_pos ⟨c, by push_cast; linarith⟩, if_pos ⟨c, by push_cast; linarith⟩, if_pos ⟨c, by push_cast; linarith⟩, if_pos (by simpa using c)]
    · rw [if_neg (fun h => c h.1), if_neg (fun h => c h.1), if_neg (fun h => c h.1), if_neg (by simpa using c)]
      simp

section classes
omit [DecidableEq C]

theorem tot_split (D : List (Vert C)) (f h : P → Bool) (w : Quad C → C) :
    tot D f w = tot D (fun p => f p && h p) w + tot D (fun p => f p && !h p) w := by
  induction D with
  | nil => simp
  | cons v D ih =>
    rw [tot_cons, tot_cons, tot_cons, ih]
    cases f v.1 <;> cases h v.1 <;> simp <;> abel

/-- A quantity that vanishes on every class vanishes on every union of classes. -/
theorem tot_classes {K : Type} [DecidableEq K] (key : P → K) (w : Quad C → C) (f : K → Bool) : ∀ (n : Nat) (D : List (Vert C)), D.length ≤ n →
    (∀ k, tot D (fun p => decide (key p = k)) w = 0) → tot D (fun p => f (key p)) w = 0 := by
  intro n
  induction n with
  | zero =>
    intro D hn _
    have hD : D = [] := List.length_eq_zero_iff.1 (by omega)
    rw [hD]; rfl
  | succ n ih =>
    intro D hn h
    cases D with
    | nil => rfl
    | cons v D =>
      have hlen : ((v :: D).filter (fun u => !decide (key u.1 = key v.1))).length ≤ n := by
        rw [List.filter_cons_of_neg (by simp)]
        have := List.length_filter_le (fun u : Vert C => !decide (key u.1 = key v.1)) D
        simp only [List.length_cons] at hn
        omega
      have hF := fun (f : P → Bool) => tot_filter (v :: D) f (fun p => !decide (key p = key v.1)) w
      have := ih _ hlen (by
        intro k
        rw [hF]
        by_cases c : k = key v.1
        · rw [tot_congr (h := fun _ => false)]
          · simp [tot]
          · intro u _; rw [c]; simp
        · rw [← h k]
          refine tot_congr _ (fun u _ => ?_)
          by_cases c' : key u.1 = k
          · simp [c', c]
          · simp [c'])
      rw [hF] at this
      rw [tot_split _ _ (fun p => decide (key p = key v.1))]
      have e2 : tot (v :: D) (fun p => f (key p) && !decide (key p = key v.1)) w = 0 := by
        rw [← this]; refine tot_congr _ (fun u _ => ?_)
        rw [Bool.and_comm]
      rw [e2, add_zero]
      by_cases c : f (key v.1) = true
      · rw [← h (key v.1)]
        refine tot_congr _ (fun u _ => ?_)
        by_cases c' : key u.1 = key v.1
        · simp [c', c]
        · simp [c']
      · rw [tot_congr (h := fun _ => false)]
        · simp [tot]
        · intro u _
          by_cases c' : key u.1 = key v.1
          · simp [c', c]
          · simp [c']

theorem tot_sub (D : List (Vert C)) (f : P → Bool) (w1 w2 : Quad C → C) :
    tot D f (fun q => w1 q - w2 q) = tot D f w1 - tot D f w2 := by
  induction D with
  | nil => simp
  | cons v D ih =>
    rw [tot_cons, tot_cons, tot_cons, ih]
    split_ifs
    · abel
    · simp

/-- The weights to the right and up agree over any class of points. -/
theorem closed_points {D : List (Vert C)} (hc : Closed D) (f : P → Bool) :
    tot D f (fun q => q.n + q.z + q.p) = tot D f Quad.v := by
  have := tot_classes (fun p : P => p) (fun q : Quad C => q.n + q.z + q.p - q.v) f D.length D (le_refl _) (by
    intro k
    have := tot_sub D (fun p => decide (p = k)) (fun q => q.n + q.z + q.p) Quad.v
    rw [this, hc.point k, sub_self])
  have e := tot_sub D f (fun q => q.n + q.z + q.p) Quad.v
  rw [e] at this
  exact sub_eq_zero.1 this

theorem closed_verts {D : List (Vert C)} (hc : Closed D) (f : Int → Bool) : tot D (fun p => f p.1) Quad.v = 0 :=
  tot_classes (fun p : P => p.1) Quad.v f D.length D (le_refl _) hc.vert

theorem closed_downs {D : List (Vert C)} (hc : Closed D) (f : Int → Bool) : tot D (fun p => f (p.1 + p.2)) Quad.n = 0 :=
  tot_classes (fun p : P => p.1 + p.2) Quad.n f D.length D (le_refl _) hc.down

theorem closed_ups {D : List (Vert C)} (hc : Closed D) (f : Int → Bool) : tot D (fun p => f (p.2 - p.1)) Quad.p = 0 :=
  tot_classes (fun p : P => p.2 - p.1) Quad.p f D.length D (le_refl _) hc.up

theorem closed_flats {D : List (Vert C)} (hc : Closed D) (f : Int → Bool) : tot D (fun p => f p.2) Quad.z = 0 :=
  tot_classes (fun p : P => p.2) Quad.z f D.length D (le_refl _) hc.flat

theorem sum_filter_tot (D : List (Vert C)) (f : P → Bool) (w : Quad C → C) :
    ((D.filter (fun v => f v.1)).map (fun v => w v.2)).sum = tot D f w := by
  induction D with
  | nil => rfl
  | cons v D ih =>
    rw [tot_cons, ← ih]
    by_cases c : f v.1 = true
    · rw [List.filter_cons_of_pos (by simpa using c)]; simp [c]
    · rw [List.filter_cons_of_neg (by simpa using c)]; simp [c]

end classes

theorem inOK_of_closed {vs : List (Vert C)} (hs : vs.Pairwise Lex) (hc : Closed vs) : InOK (OnGrid vs) vs := by
  refine ⟨hs, fun X => ?_⟩
  refine { insx := ?_, sorted := ?_, balanced := ?_, vsum := ?_, even := ?_ }
  · intro v hv; simpa using (List.mem_filter.1 hv).2
  · unfold YSorted
    have h := hs.filter (fun v => decide (v.1.1 = X))
    refine List.Pairwise.imp_of_mem ?_ h
    intro a b ha hb hab
    have h1 := (List.mem_filter.1 ha).2
    have h2 := (List.mem_filter.1 hb).2
    simp only [decide_eq_true_eq] at h1 h2
    unfold Spec.Deg45.Lex at hab
    omega
  · intro y
    have e : ∀ w : Quad C → C, (((vs.filter (fun v => decide (v.1.1 = X))).filter (fun v => decide (v.1.2 = y))).map (fun v => w v.2)).sum =
        tot vs (fun p => decide (p = (X, y))) w := by
      intro w
      rw [List.filter_filter, ← sum_filter_tot]
      congr 3
      funext v
      rw [Bool.eq_iff_iff]
      simp only [Bool.and_eq_true, decide_eq_true_eq]
      constructor
      · rintro ⟨h1, h2⟩; exact Prod.ext h2 h1
      · intro h; rw [h]; exact ⟨rfl, rfl⟩
    unfold totQ
    simp only
    rw [e, e, e, e, ← hc.point (X, y), tot_add, tot_add]
  · have := sum_filter_tot vs (fun p => decide (p.1 = X)) Quad.v
    rw [this]; exact hc.vert X
  · intro hev v hv; exact hev v (List.mem_filter.1 hv).1

/-- What the operations on vectors compute. -/
theorem runOn_spec (h0 : g 0 = false) {umin : Int} {vs : List (Vert C)} (hs : vs.Pairwise Lex) (hc : Closed vs)
    (hmin : ∀ v ∈ vs, umin ≤ v.1.1) :
    (∃ d m, runOn g umin vs = .ok (d, m) ∧ (∀ q, depth d q = gi g (depth vs q)) ∧ Closed d ∧ d.Pairwise (fun v w => PLt v.1 w.1) ∧
      (m = true ↔ ∀ v ∈ d, is45 v.2 = false) ∧ (∀ v ∈ d, umin ≤ v.1.1) ∧
      ∀ M, umin ≤ M → (∀ v ∈ vs, v.1.1 ≤ M) → ∀ v ∈ d, v.1.1 ≤ M) ∨
    (runOn g umin vs = .error .precision ∧ ¬ OnGrid vs) := by
  -- everything that is needed for one bound
  have main : ∀ M, umin ≤ M → (∀ v ∈ vs, v.1.1 ≤ M) →
      (∃ t out, Run.feed g ⟨⟨[], [], umin⟩, ⟨[], 0, true⟩, [], none⟩ vs = .ok t ∧
        RI g (OnGrid vs) umin M t.st t.acc vs out) ∨
      (Run.feed g ⟨⟨[], [], umin⟩, ⟨[], 0, true⟩, [], none⟩ vs = .error .precision ∧ ¬ OnGrid vs) := by
    intro M hM hv
    have hi : Inv g (OnGrid vs) ⟨[], [], umin⟩ [] [] :=
      { dn := { good := { slope := by simp, sorted := List.Pairwise.nil, chain := by simp, orig := by simp,
                          qsorted := by simp [QSorted], qgt := by simp }
                rin := Eqv.refl _, rout := Eqv.refl _, bal := fun _ => rfl }
        even := by simp, inx := by simp, outx := by simp
        hist := fun q _ => by simp [Hist, rays, oRays, gi, h0] }
    have := feed_spec (umin := umin) (M := M) h0 vs ⟨⟨[], [], umin⟩, ⟨[], 0, true⟩, [], none⟩ [] []
      { inv := hi, shut := ⟨List.Pairwise.nil, by simp, by simp⟩, same := fun f => by simp, le := by simp, ge := by simp,
        lo := le_refl _, hi := hM } (inOK_of_closed hs hc) hv
      (Or.inr ⟨rfl, Or.inr ⟨by simp, List.Pairwise.nil, hmin⟩⟩) (Or.inl rfl)
    exact this
  obtain ⟨M0, hM0, hM0'⟩ : ∃ M, umin ≤ M ∧ ∀ v ∈ vs, v.1.1 ≤ M := by
    clear main hs hc hmin
    induction vs with
    | nil => exact ⟨umin, le_refl _, by simp⟩
    | cons v vs ih =>
      obtain ⟨M, h1, h2⟩ := ih
      refine ⟨max M v.1.1, by omega, ?_⟩
      intro u hu
      rcases List.mem_cons.1 hu with rfl | hu
      · omega
      · have := h2 u hu; omega
  rcases main M0 hM0 hM0' with ⟨t, out, e, i⟩ | ⟨e, ne⟩
  swap
  · right; unfold runOn; rw [e]; exact ⟨rfl, ne⟩
  left
  obtain ⟨f1, f2⟩ := finish_spec i.shut
  have hr : ∀ v ∈ out, Rise v := fun v hv => (i.inv.outx v hv).2
  have hsame : Same (finish t.acc).1 out := by
    rw [f1]; intro f
    obtain ⟨a1, a2, a3, a4⟩ := i.same f
    have := fun w => tot_perm (List.reverse_perm t.acc.res) f w
    rw [this, this, this, this]
    exact ⟨a1, a2, a3, a4⟩
  have hdep : ∀ q, depth (finish t.acc).1 q = gi g (depth vs q) := by
    intro q
    rw [same_depth hsame hr, depth_rays]
    exact end_hist h0 i.inv hc q
  have hpt : ∀ p, tot (finish t.acc).1 (fun a => decide (a = p)) (fun q => q.n + q.z + q.p) =
      tot (finish t.acc).1 (fun a => decide (a = p)) Quad.v := by
    intro p
    have hb := i.inv.dn.bal p
    rw [bal_osum hr] at hb
    obtain ⟨a1, a2, a3, a4⟩ := hsame (fun a => decide (a = p))
    rw [tot_add, tot_add]
    show tot _ _ Quad.n + tot _ _ Quad.z + tot _ _ Quad.p = _
    rw [a1, a2, a3, a4]
    linarith
  have hline : ∀ r k : Int, sumOn (fun l => decide (l = (r, k))) (oRays out) = 0 := fun r k => (end_counts i.inv hc).2 _
  have hcol : ∀ X : ℚ, tot (finish t.acc).1 (fun p => decide ((p.1 : ℚ) ≤ X)) (fun q => q.n + q.z + q.p) = 0 := by
    intro X
    obtain ⟨Y1, h1⟩ := depth_top (finish t.acc).1 X
    obtain ⟨Y2, h2⟩ := depth_top vs X
    rw [← h1 _ (le_max_left Y1 Y2), hdep, h2 _ (le_max_right Y1 Y2), closed_points hc]
    have := closed_verts hc (fun a => decide ((a : ℚ) ≤ X))
    rw [this]
    simp [gi, h0]
  have hpts : ∀ f, tot (finish t.acc).1 f (fun q => q.n + q.z + q.p) = tot (finish t.acc).1 f Quad.v := by
    intro f
    have := tot_classes (fun p : P => p) (fun q : Quad Int => q.n + q.z + q.p - q.v) f _ (finish t.acc).1 (le_refl _) (by
      intro k
      have := tot_sub (finish t.acc).1 (fun p => decide (p = k)) (fun q => q.n + q.z + q.p) Quad.v
      rw [this, hpt k, sub_self])
    have e := tot_sub (finish t.acc).1 f (fun q => q.n + q.z + q.p) Quad.v
    rw [e] at this
    exact sub_eq_zero.1 this
  have hclosed : Closed (finish t.acc).1 := by
    refine ⟨hpt, ?_, ?_, ?_, ?_⟩
    · intro x
      rw [← hpts]
      have h1 := hcol x
      have h2 := hcol ((x - 1 : Int) : ℚ)
      rw [tot_split _ _ (fun p => decide (p.1 = x))] at h1
      have e1 : tot (finish t.acc).1 (fun p => decide ((p.1 : ℚ) ≤ x) && decide (p.1 = x)) (fun q => q.n + q.z + q.p) =
          tot (finish t.acc).1 (fun p => decide (p.1 = x)) (fun q => q.n + q.z + q.p) := by
        refine tot_congr _ (fun v _ => ?_)
        by_cases c : v.1.1 = x <;> simp [c]
      have e2 : tot (finish t.acc).1 (fun p => decide ((p.1 : ℚ) ≤ x) && !decide (p.1 = x)) (fun q => q.n + q.z + q.p) =
          tot (finish t.acc).1 (fun p => decide ((p.1 : ℚ) ≤ ((x - 1 : Int) : ℚ))) (fun q => q.n + q.z + q.p) := by
        refine tot_congr _ (fun v _ => ?_)
        rw [Bool.eq_iff_iff]
        simp only [Bool.and_eq_true, decide_eq_true_eq, Bool.not_eq_true', decide_eq_false_iff_not, Int.cast_le]
        omega
      rw [e1, e2, h2, add_zero] at h1
      exact h1
    · intro k
      rw [(hsame _).1]
      have := hline (-1) k
      rw [sumOn_oRays _ hr] at this
      have e0 : osum out (fun p => decide (lineOf p (0) = ((-1, k) : Line))) (0) = 0 := by simp [osum, lineOf]
      have e1 : osum out (fun p => decide (lineOf p (1) = ((-1, k) : Line))) (1) = 0 := by simp [osum, lineOf]
      have e : osum out (fun a => decide (a.1 + a.2 = k)) (-1) = osum out (fun p => decide (lineOf p (-1) = ((-1, k) : Line))) (-1) := by
        congr 1; funext a; rw [decide_eq_decide]; simp only [lineOf, Prod.mk.injEq, true_and]; omega
      rw [e]; linarith
    · intro k
      rw [(hsame _).2.1]
      have := hline (0) k
      rw [sumOn_oRays _ hr] at this
      have e0 : osum out (fun p => decide (lineOf p (-1) = ((0, k) : Line))) (-1) = 0 := by simp [osum, lineOf]
      have e1 : osum out (fun p => decide (lineOf p (1) = ((0, k) : Line))) (1) = 0 := by simp [osum, lineOf]
      have e : osum out (fun a => decide (a.2 = k)) (0) = osum out (fun p => decide (lineOf p (0) = ((0, k) : Line))) (0) := by
        congr 1; funext a; rw [decide_eq_decide]; simp only [lineOf, Prod.mk.injEq, true_and]; omega
      rw [e]; linarith
    · intro k
      rw [(hsame _).2.2.1]
      have := hline (1) k
      rw [sumOn_oRays _ hr] at this
      have e0 : osum out (fun p => decide (lineOf p (-1) = ((1, k) : Line))) (-1) = 0 := by simp [osum, lineOf]
      have e1 : osum out (fun p => decide (lineOf p (0) = ((1, k) : Line))) (0) = 0 := by simp [osum, lineOf]
      have e : osum out (fun a => decide (a.2 - a.1 = k)) (1) = osum out (fun p => decide (lineOf p (1) = ((1, k) : Line))) (1) := by
        congr 1; funext a; rw [decide_eq_decide]; simp only [lineOf, Prod.mk.injEq, true_and]; omega
      rw [e]; linarith
  refine ⟨(finish t.acc).1, (finish t.acc).2, ?_, hdep, hclosed, ?_, f2, ?_, ?_⟩
  · unfold runOn; rw [e]
  · rw [f1, List.pairwise_reverse]; exact i.shut.sorted
  · intro v hv; rw [f1] at hv; exact i.ge v (by simpa using hv)
  · intro M hM hv v hvd
    rcases main M hM hv with ⟨t', out', e', i'⟩ | ⟨e', -⟩
    · rw [e] at e'; injection e' with e'; subst e'
      rw [f1] at hvd
      exact le_trans (i'.le v (by simpa using hvd)) i'.hi
    · rw [e] at e'; simp at e'

end Verif.Set45
