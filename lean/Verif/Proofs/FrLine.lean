import Verif.Proofs.F45Heap
import Verif.Model.Frac45
/-!
# Polygons without holes: lines that differ by slits

In the formation that links holes to the outline a line also runs around the holes, and its ends may be further along the edges
than those of the line of the formation with holes.
-/
namespace Verif.Fr
open Verif.ArbForm Verif.Spec Verif.Spec.Arb Verif.F45
open Verif.Arb (Pt)
open Verif.Deg45 (V45)

/-- The point is on the line of the edge; slope 2 is vertical. -/
def On (k : V45) (m : Pt) : Prop := if k.rise = 2 then m.1 = k.pt.1 else m.2 = Form45.eval k m.1

/-- The slope of an edge. -/
def Rise (r : Int) : Prop := r = -1 ∨ r = 0 ∨ r = 1 ∨ r = 2

theorem on_oct {k : V45} (hr : Rise k.rise) {a b : Pt} (h1 : On k a) (h2 : On k b) : Oct2 a b := by
  unfold On Form45.eval at *
  unfold Oct2
  rcases hr with h | h | h | h
  all_goals
    simp only [h] at h1 h2
    norm_num at h1 h2
    omega

theorem on_crossing {k : V45} {q : ℚ × ℚ} {a b c : Pt} (h1 : On k a) (h2 : On k b) (h3 : On k c) : crossing q (a, b) + crossing q (b, c) = crossing q (a, c) := by
  unfold On at h1 h2 h3
  by_cases hr : k.rise = 2
  · rw [if_pos hr] at h1 h2 h3
    exact crossing_ver (h1.trans h2.symm) (h2.trans h3.symm)
  · rw [if_neg hr] at h1 h2 h3
    unfold Form45.eval at h1 h2 h3
    obtain ⟨y, hy⟩ : ∃ y : ℚ, y = k.pt.2 + k.rise * (q.1 - k.pt.1) := ⟨_, rfl⟩
    have e : ∀ a b : Pt, a.2 = k.pt.2 + k.rise * (a.1 - k.pt.1) → b.2 = k.pt.2 + k.rise * (b.1 - k.pt.1) →
        crossing q (a, b) = if y ≤ q.2 then (if (a.1 : ℚ) ≤ q.1 ∧ q.1 < b.1 then 1 else if (b.1 : ℚ) ≤ q.1 ∧ q.1 < a.1 then -1 else 0) else 0 := by
      intro a b h1 h2
      by_cases hab : a.1 = b.1
      · rw [PolySet.crossing_vert hab, hab]
        by_cases c1 : (b.1 : ℚ) ≤ q.1
        · simp [c1, not_lt.2 c1]
        · simp [c1]
      · have hy' : lineY a b q.1 = y := by
          have h1' : (a.2 : ℚ) = k.pt.2 + k.rise * (a.1 - k.pt.1) := by exact_mod_cast h1
          have h2' : (b.2 : ℚ) = k.pt.2 + k.rise * (b.1 - k.pt.1) := by exact_mod_cast h2
          have hne : (b.1 : ℚ) - a.1 ≠ 0 := by
            intro h
            apply hab
            have : (a.1 : ℚ) = b.1 := by linarith
            exact_mod_cast this
          unfold lineY
          rw [h1', h2', hy]
          field_simp
          ring
        unfold crossing
        dsimp only
        rw [hy']
        by_cases c : y ≤ q.2
        · simp [c]
        · simp [c]
    rw [e a b h1 h2, e b c h2 h3, e a c h1 h3]
    by_cases g : y ≤ q.2
    · rw [if_pos g, if_pos g, if_pos g]
      by_cases c1 : (a.1 : ℚ) ≤ q.1 <;> by_cases c2 : (b.1 : ℚ) ≤ q.1 <;> by_cases c3 : (c.1 : ℚ) ≤ q.1 <;>
        simp [c1, c2, c3, not_lt.2, lt_of_not_ge]
    · rw [if_neg g, if_neg g, if_neg g]; rfl

theorem on_swap {q : ℚ × ℚ} (a b : Pt) : crossing q (b, a) = -crossing q (a, b) := PolySet.crossing_swap q (a, b)

/-- The line `m` runs as `l` does, around holes with the windings `S`, and begins and ends elsewhere on the edges. -/
structure WR (S : ℚ × ℚ → Int) (m l : List Pt) : Prop where
  mne : m ≠ []
  lne : l ≠ []
  w : ∀ q, wnd q m = lnk q m.head? l.head? + wnd q l + lnk q l.getLast? m.getLast? + S q
  o : Oct m

theorem lnk_swap (q : ℚ × ℚ) (a b : Option Pt) : lnk q b a = -lnk q a b := by
  rcases a with _ | a
  · rcases b with _ | b <;> rfl
  rcases b with _ | b
  · rfl
  · exact on_swap a b

theorem WR.reverse {S : ℚ × ℚ → Int} {m l : List Pt} (h : WR S m l) : WR (fun q => -S q) m.reverse l.reverse where
  mne := by simpa using h.mne
  lne := by simpa using h.lne
  w q := by
    rw [wnd_reverse, wnd_reverse, h.w, List.head?_reverse, List.head?_reverse, List.getLast?_reverse, List.getLast?_reverse, lnk_swap q m.getLast?, lnk_swap q m.head?]
    ring
  o := oct_reverse _ h.o

theorem head_some {l : List Pt} (h : l ≠ []) : ∃ a, l.head? = some a := by
  cases l with
  | nil => exact absurd rfl h
  | cons a r => exact ⟨a, rfl⟩

theorem last_some {l : List Pt} (h : l ≠ []) : ∃ a, l.getLast? = some a := ⟨l.getLast h, List.getLast?_eq_some_getLast h⟩

theorem push_head (p : Pt) (l : List Pt) : (Form45.pushFront p l).head? = some p := (push45 p l).hd

theorem push_last {p : Pt} {l : List Pt} (h : l ≠ []) : (Form45.pushFront p l).getLast? = l.getLast? := by
  rw [(push45 p l).ls]
  cases l with
  | nil => exact absurd rfl h
  | cons a r => rw [List.getLast?_cons_cons]

theorem push_ne (p : Pt) (l : List Pt) : Form45.pushFront p l ≠ [] := by
  intro h
  have := push_head p l
  rw [h] at this
  cases this

theorem push_wnd (q : ℚ × ℚ) (p : Pt) (l : List Pt) : wnd q (Form45.pushFront p l) = lnk q (some p) l.head? + wnd q l := by
  rw [(push45 p l).w, wnd_head]

/-- A point put in front of both lines. -/
theorem WR.front {S : ℚ × ℚ → Int} {m l : List Pt} (h : WR S m l) {k : V45} (hr : Rise k.rise) {p : Pt} (hp : On k p) (hm : ∀ a, m.head? = some a → On k a)
    (hl : ∀ a, l.head? = some a → On k a) : WR S (Form45.pushFront p m) (Form45.pushFront p l) where
  mne := push_ne _ _
  lne := push_ne _ _
  w q := by
    rw [push_wnd, push_wnd, push_head, push_head, push_last h.mne, push_last h.lne, h.w]
    obtain ⟨a, ha⟩ := head_some h.mne
    obtain ⟨b, hb⟩ := head_some h.lne
    rw [ha, hb]
    have := on_crossing (q := q) hp (hm a ha) (hl b hb)
    have h0 := crossing_same q p
    simp only [lnk]
    rw [h0]
    linarith
  o := by
    refine (push45 p m).o ?_
    rw [oct_head]
    refine ⟨?_, h.o⟩
    obtain ⟨a, ha⟩ := head_some h.mne
    rw [ha]
    exact on_oct hr hp (hm a ha)

/-- A point put behind both lines. -/
theorem WR.back {S : ℚ × ℚ → Int} {m l : List Pt} (h : WR S m l) {k : V45} (hr : Rise k.rise) {p : Pt} (hp : On k p) (hm : ∀ a, m.getLast? = some a → On k a)
    (hl : ∀ a, l.getLast? = some a → On k a) : WR S (Form45.pushFront p m.reverse).reverse (Form45.pushFront p l.reverse).reverse := by
  have := (h.reverse.front hr hp (by rw [List.head?_reverse]; exact hm) (by rw [List.head?_reverse]; exact hl)).reverse
  simpa using this

/-- A point put in front of the line that runs around holes. -/
theorem WR.frontL {S : ℚ × ℚ → Int} {m l : List Pt} (h : WR S m l) {k : V45} (hr : Rise k.rise) {p : Pt} (hp : On k p) (hm : ∀ a, m.head? = some a → On k a)
    (hl : ∀ a, l.head? = some a → On k a) : WR S (Form45.pushFront p m) l where
  mne := push_ne _ _
  lne := h.lne
  w q := by
    rw [push_wnd, push_head, push_last h.mne, h.w]
    obtain ⟨a, ha⟩ := head_some h.mne
    obtain ⟨b, hb⟩ := head_some h.lne
    rw [ha, hb]
    have := on_crossing (q := q) hp (hm a ha) (hl b hb)
    simp only [lnk]
    linarith
  o := (h.front hr hp hm hl).o

theorem WR.backL {S : ℚ × ℚ → Int} {m l : List Pt} (h : WR S m l) {k : V45} (hr : Rise k.rise) {p : Pt} (hp : On k p) (hm : ∀ a, m.getLast? = some a → On k a)
    (hl : ∀ a, l.getLast? = some a → On k a) : WR S (Form45.pushFront p m.reverse).reverse l := by
  have := (h.reverse.frontL hr hp (by rw [List.head?_reverse]; exact hm) (by rw [List.head?_reverse]; exact hl)).reverse
  simpa using this

/-- Lines joined at ends on one edge. -/
theorem WR.app {S T : ℚ × ℚ → Int} {m l m' l' : List Pt} (h : WR S m l) (h' : WR T m' l') {k : V45} (hr : Rise k.rise)
    (h1 : ∀ a, m.getLast? = some a → On k a) (h2 : ∀ a, l.getLast? = some a → On k a) (h3 : ∀ a, m'.head? = some a → On k a) (h4 : ∀ a, l'.head? = some a → On k a) :
    WR (fun q => S q + T q) (m ++ m') (l ++ l') where
  mne := by simp [h.mne]
  lne := by simp [h.lne]
  w q := by
    rw [wnd_append, wnd_append, h.w, h'.w, List.head?_append_of_ne_nil _ h.mne, List.head?_append_of_ne_nil _ h.lne, List.getLast?_append_of_ne_nil _ h'.mne,
      List.getLast?_append_of_ne_nil _ h'.lne]
    obtain ⟨a, ha⟩ := last_some h.mne
    obtain ⟨b, hb⟩ := last_some h.lne
    obtain ⟨c, hc⟩ := head_some h'.mne
    obtain ⟨d, hd⟩ := head_some h'.lne
    rw [ha, hb, hc, hd]
    have e1 := on_crossing (q := q) (h2 b hb) (h1 a ha) (h3 c hc)
    have e2 := on_crossing (q := q) (h2 b hb) (h3 c hc) (h4 d hd)
    simp only [lnk] at *
    linarith
  o := by
    rw [oct_append]
    refine ⟨h.o, ?_, h'.o⟩
    obtain ⟨a, ha⟩ := last_some h.mne
    obtain ⟨c, hc⟩ := head_some h'.mne
    rw [ha, hc]
    exact on_oct hr (h1 a ha) (h3 c hc)

theorem WR.one (p : Pt) : WR (fun _ => 0) [p] [p] where
  mne := by simp
  lne := by simp
  w q := by simp [wnd, lnk, crossing_same]
  o := trivial

theorem WR.congr {S T : ℚ × ℚ → Int} {m l : List Pt} (h : WR S m l) (e : ∀ q, S q = T q) : WR T m l :=
  ⟨h.mne, h.lne, fun q => by rw [h.w, e], h.o⟩

end Verif.Fr
