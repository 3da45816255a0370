import Verif.Proofs.TouchScan
import Verif.Proofs.Set90Extents
/-! # Helper lemmas: filling the events of the connectivity extraction -/
namespace Verif.Touch
open Verif.BooleanOp Verif.Set90 Verif.Spec

/-- The count of the vertices of a column up to a position. -/
def cu (D : List V) (x y : Int) : Int := (D.map (fun v => if v.x = x ∧ v.y ≤ y then v.c else 0)).sum

theorem cu_cons (v : V) (D : List V) (x y : Int) : cu (v :: D) x y = (if v.x = x ∧ v.y ≤ y then v.c else 0) + cu D x y := by simp [cu]

theorem cu_append (D E : List V) (x y : Int) : cu (D ++ E) x y = cu D x y + cu E x y := by simp [cu]

theorem cu_eq (D : List V) (x y : Int) : cu D x y = coverZ D x y - coverZ D (x - 1) y := by
  induction D with
  | nil => rfl
  | cons v D ih =>
    rw [cu_cons, ih, coverZ_cons, coverZ_cons]
    split_ifs <;> omega

theorem cu_zero {D : List V} {x y : Int} (h : ∀ v ∈ D, v.x = x → y < v.y) : cu D x y = 0 := by
  induction D with
  | nil => rfl
  | cons v D ih =>
    rw [cu_cons, ih (fun w hw => h w (by simp [hw])), if_neg, add_zero]
    rintro ⟨h1, h2⟩
    have := h v (by simp) h1; omega

theorem cu_total {D : List V} {x y : Int} (h : ∀ v ∈ D, v.x = x → v.y ≤ y) : cu D x y = (D.map (fun v => if v.x = x then v.c else 0)).sum := by
  induction D with
  | nil => rfl
  | cons v D ih =>
    rw [cu_cons, ih (fun w hw => h w (by simp [hw])), List.map_cons, List.sum_cons]
    congr 1
    have := h v (by simp)
    by_cases hx : v.x = x
    · rw [if_pos ⟨hx, this hx⟩, if_pos hx]
    · rw [if_neg (fun h => hx h.1), if_neg hx]

theorem cu_mass (D : List V) (x y : Int) : cu D x y - cu D x (y - 1) = mass D x y := by
  rw [cu_eq, cu_eq, mass_eq_cover]; ring

/-- The edges of a vertex list that the loop has met when it stands at `(px, py)`. -/
def Met (D : List V) (px py : Int) (sg : Int) (x y : Int) : Prop := (x < px ∨ (x = px ∧ y < py)) ∧ 0 < sg * cu D x y

theorem populateGo_spec (id : Nat) {D : List V} (hD : Canon D) (hcl : Closed D) (hb : ∀ x y, -1 ≤ cu D x y ∧ cu D x y ≤ 1)
    {Ll Lr : Int → Nat → Int → Prop} (hl : ∀ x y, ¬ Ll x id y) (hr : ∀ x y, ¬ Lr x id y) : ∀ (r E : List V) (px py count : Int) (d : Data),
    D = E ++ r → (∃ v ∈ E, v.x = px ∧ v.y = py) → (∀ v ∈ E, v.x < px ∨ (v.x = px ∧ v.y ≤ py)) →
    (∀ v ∈ r, px < v.x ∨ (px = v.x ∧ py ≤ v.y)) → count = cu E px py →
    EvsOk d.left (fun x i y => Ll x i y ∨ (i = id ∧ Met D px py 1 x y)) →
    EvsOk d.right (fun x i y => Lr x i y ∨ (i = id ∧ Met D px py (-1) x y)) →
    EvsOk (populateGo id px py count d r).left (fun x i y => Ll x i y ∨ (i = id ∧ 0 < cu D x y)) ∧
    EvsOk (populateGo id px py count d r).right (fun x i y => Lr x i y ∨ (i = id ∧ cu D x y < 0)) := by
  intro r
  induction r with
  | nil =>
    intro E px py count d hE hp hE1 hr1 hcount h1 h2
    rw [List.append_nil] at hE
    subst hE
    have hz : ∀ x y, ¬ (x < px ∨ (x = px ∧ y < py)) → cu D x y = 0 := by
      intro x y h
      by_cases hx : x = px
      · subst hx
        rw [cu_total (fun v hv hvx => by have := hE1 v hv; omega)]
        exact hcl.1 x
      · exact cu_zero (fun v hv hvx => by have := hE1 v hv; omega)
    constructor
    · refine evsOk_congr h1 (fun x i y => or_congr_right (and_congr_right fun _ => ?_))
      unfold Met
      constructor
      · rintro ⟨-, h⟩; omega
      · intro h
        refine ⟨?_, by omega⟩
        by_contra hc
        rw [hz x y hc] at h; omega
    · refine evsOk_congr h2 (fun x i y => or_congr_right (and_congr_right fun _ => ?_))
      unfold Met
      constructor
      · rintro ⟨-, h⟩; omega
      · intro h
        refine ⟨?_, by omega⟩
        by_contra hc
        rw [hz x y hc] at h; omega
  | cons v r ih =>
    intro E px py count d hE hp hE1 hr1 hcount h1 h2
    have hEr : D = (E ++ [v]) ++ r := by rw [hE]; simp
    have hpw := hD.1
    rw [hE, List.pairwise_append] at hpw
    have hvr := (List.pairwise_cons.mp hpw.2.1).1
    have hr2 : ∀ w ∈ r, v.x < w.x ∨ (v.x = w.x ∧ v.y ≤ w.y) := fun w hw => (hvr w hw).1
    have hv := hr1 v (by simp)
    have hE2 : ∀ w ∈ E ++ [v], w.x < v.x ∨ (w.x = v.x ∧ w.y ≤ v.y) := by
      intro w hw
      rcases List.mem_append.mp hw with hw | hw
      · have := hE1 w hw; omega
      · simp at hw; rw [hw]; omega
    unfold populateGo
    by_cases hx : v.x ≠ px
    · rw [if_pos hx]
      have hlt : px < v.x := by omega
      have hz : ∀ x y, (x < v.x ∨ (x = v.x ∧ y < v.y)) → ¬ (x < px ∨ (x = px ∧ y < py)) → cu D x y = 0 := by
        intro x y h1 h2
        by_cases hx : x = px
        · subst hx
          rw [cu_total (fun w hw hwx => by
            rw [hEr] at hw
            rcases List.mem_append.mp hw with hw | hw
            · rcases List.mem_append.mp hw with hw | hw
              · have := hE1 w hw; omega
              · simp at hw; subst hw; omega
            · have := hr2 w hw; omega)]
          exact hcl.1 x
        · exact cu_zero (fun w hw hwx => by
            rw [hEr] at hw
            rcases List.mem_append.mp hw with hw | hw
            · rcases List.mem_append.mp hw with hw | hw
              · have := hE1 w hw; omega
              · simp at hw; subst hw; omega
            · have := hr2 w hw; omega)
      refine ih (E ++ [v]) v.x v.y v.c d hEr ⟨v, by simp, rfl, rfl⟩ hE2 hr2 ?_ ?_ ?_
      · rw [cu_append, cu_cons, if_pos ⟨rfl, le_refl _⟩, cu_zero (D := E) (fun w hw hwx => by have := hE1 w hw; omega)]
        simp [cu]
      · refine evsOk_congr h1 (fun x i y => or_congr_right (and_congr_right fun _ => ?_))
        unfold Met
        constructor
        · rintro ⟨h, h'⟩; exact ⟨by omega, h'⟩
        · rintro ⟨h, h'⟩
          refine ⟨?_, h'⟩
          by_contra hc
          rw [hz x y h hc] at h'; omega
      · refine evsOk_congr h2 (fun x i y => or_congr_right (and_congr_right fun _ => ?_))
        unfold Met
        constructor
        · rintro ⟨h, h'⟩; exact ⟨by omega, h'⟩
        · rintro ⟨h, h'⟩
          refine ⟨?_, h'⟩
          by_contra hc
          rw [hz x y h hc] at h'; omega
    · rw [if_neg hx]
      have hx : v.x = px := by simpa using hx
      have hpy : py ≤ v.y := by omega
      have hcnt : ∀ y, py ≤ y → y < v.y → cu D px y = count := by
        intro y h1 h2
        rw [hE, cu_append, cu_zero (D := v :: r) (fun w hw hwx => by
          rcases List.mem_cons.mp hw with rfl | hw
          · omega
          · have := hr2 w hw; omega), add_zero, hcount,
          cu_total (fun w hw hwx => by have := hE1 w hw; omega), cu_total (fun w hw hwx => by have := hE1 w hw; omega)]
      have hcount' : count + v.c = cu (E ++ [v]) px v.y := by
        rw [cu_append, cu_cons, if_pos ⟨hx, le_refl _⟩, hcount,
          cu_total (fun w hw hwx => by have := hE1 w hw; omega), cu_total (D := E) (y := v.y) (fun w hw hwx => by have := hE1 w hw; omega)]
        simp [cu]
      have hr3 : ∀ w ∈ r, px < w.x ∨ (px = w.x ∧ v.y ≤ w.y) := fun w hw => by have := hr2 w hw; omega
      have hE3 : ∀ w ∈ E ++ [v], w.x < px ∨ (w.x = px ∧ w.y ≤ v.y) := fun w hw => by have := hE2 w hw; omega
      -- two edges of the same side of one set do not meet
      have hprev : py < v.y → ∀ sg, sg = 1 ∨ sg = -1 → 0 < sg * count → ¬ 0 < sg * cu D px (py - 1) := by
        intro hlt sg hsg hc hn
        obtain ⟨w, hw, hwx, hwy⟩ := hp
        have hm := mass_ne_zero hD (v := w) (by rw [hE]; simp [hw])
        rw [hwx, hwy, ← cu_mass, hcnt py (le_refl _) hlt] at hm
        have b1 := hb px (py - 1)
        have b2 := hb px py
        rw [hcnt py (le_refl _) hlt] at b2
        rcases hsg with rfl | rfl <;> omega
      have hmet : ∀ sg x y, (sg = 1 ∨ sg = -1) → (Met D px v.y sg x y ↔ Met D px py sg x y ∨ (x = px ∧ py ≤ y ∧ y < v.y ∧ 0 < sg * count)) := by
        intro sg x y _
        unfold Met
        constructor
        · rintro ⟨h, h'⟩
          by_cases hc : x < px ∨ (x = px ∧ y < py)
          · exact Or.inl ⟨hc, h'⟩
          · right
            have hxp : x = px := by omega
            rw [hxp, hcnt y (by omega) (by omega)] at h'
            exact ⟨hxp, by omega, by omega, h'⟩
        · rintro (⟨h, h'⟩ | ⟨h, h2, h3, h'⟩)
          · exact ⟨by omega, h'⟩
          · refine ⟨by omega, ?_⟩
            rw [h, hcnt y h2 h3]; exact h'
      refine ih (E ++ [v]) px v.y (count + v.c) _ hEr ⟨v, by simp, hx, rfl⟩ hE3 hr3 hcount' ?_ ?_
      · by_cases hc : count ≠ 0 ∧ v.y ≠ py
        · rw [if_pos hc]
          have hlt : py < v.y := by omega
          by_cases hc2 : count > 0
          · rw [if_pos hc2]
            refine evsOk_congr (add_ok h1 hlt (x := v.x) (i := id) ?_) (fun x i y => ?_)
            · intro y g1 g2 g3
              rcases g3 with g3 | ⟨-, g3, g4⟩
              · exact hl _ _ g3
              · have hy : y = py - 1 := by omega
                rw [hx, hy] at g4
                exact hprev hlt 1 (Or.inl rfl) (by omega) g4
            · rw [hmet 1 x y (Or.inl rfl), or_assoc, hx]
              refine or_congr_right ?_
              constructor
              · rintro (h | h)
                · exact ⟨h.1, Or.inl h.2⟩
                · exact ⟨h.2.1, Or.inr ⟨h.1, h.2.2.1, h.2.2.2, by omega⟩⟩
              · rintro ⟨h, h' | h'⟩
                · exact Or.inl ⟨h, h'⟩
                · exact Or.inr ⟨h'.1, h, h'.2.1, h'.2.2.1⟩
          · rw [if_neg hc2]
            refine evsOk_congr h1 (fun x i y => or_congr_right (and_congr_right fun _ => ?_))
            rw [hmet 1 x y (Or.inl rfl)]
            constructor
            · exact Or.inl
            · rintro (h | h)
              · exact h
              · exact absurd h.2.2.2 (by omega)
        · rw [if_neg hc]
          refine evsOk_congr h1 (fun x i y => or_congr_right (and_congr_right fun _ => ?_))
          rw [hmet 1 x y (Or.inl rfl)]
          constructor
          · exact Or.inl
          · rintro (h | h)
            · exact h
            · exact absurd h (fun h => hc ⟨by omega, by omega⟩)
      · by_cases hc : count ≠ 0 ∧ v.y ≠ py
        · rw [if_pos hc]
          have hlt : py < v.y := by omega
          by_cases hc2 : count > 0
          · rw [if_pos hc2]
            refine evsOk_congr h2 (fun x i y => or_congr_right (and_congr_right fun _ => ?_))
            rw [hmet (-1) x y (Or.inr rfl)]
            constructor
            · exact Or.inl
            · rintro (h | h)
              · exact h
              · exact absurd h.2.2.2 (by omega)
          · rw [if_neg hc2]
            refine evsOk_congr (add_ok h2 hlt (x := v.x) (i := id) ?_) (fun x i y => ?_)
            · intro y g1 g2 g3
              rcases g3 with g3 | ⟨-, g3, g4⟩
              · exact hr _ _ g3
              · have hy : y = py - 1 := by omega
                rw [hx, hy] at g4
                exact hprev hlt (-1) (Or.inr rfl) (by omega) g4
            · rw [hmet (-1) x y (Or.inr rfl), or_assoc, hx]
              refine or_congr_right ?_
              constructor
              · rintro (h | h)
                · exact ⟨h.1, Or.inl h.2⟩
                · exact ⟨h.2.1, Or.inr ⟨h.1, h.2.2.1, h.2.2.2, by omega⟩⟩
              · rintro ⟨h, h' | h'⟩
                · exact Or.inl ⟨h, h'⟩
                · exact Or.inr ⟨h'.1, h, h'.2.1, h'.2.2.1⟩
        · rw [if_neg hc]
          refine evsOk_congr h2 (fun x i y => or_congr_right (and_congr_right fun _ => ?_))
          rw [hmet (-1) x y (Or.inr rfl)]
          constructor
          · exact Or.inl
          · rintro (h | h)
            · exact h
            · exact absurd h (fun h => hc ⟨by omega, by omega⟩)

theorem populate_spec (umax : Int) (id : Nat) {D : List V} (hD : Canon D) (hcl : Closed D) (h01 : ∀ a y, coverZ D a y = 0 ∨ coverZ D a y = 1)
    {Ll Lr : Int → Nat → Int → Prop} (hl : ∀ x y, ¬ Ll x id y) (hr : ∀ x y, ¬ Lr x id y) (d : Data) (h1 : EvsOk d.left Ll) (h2 : EvsOk d.right Lr) :
    EvsOk (populate umax d D id).left (fun x i y => Ll x i y ∨ (i = id ∧ 0 < cu D x y)) ∧
    EvsOk (populate umax d D id).right (fun x i y => Lr x i y ∨ (i = id ∧ cu D x y < 0)) := by
  have hb : ∀ x y, -1 ≤ cu D x y ∧ cu D x y ≤ 1 := by
    intro x y
    rw [cu_eq]
    have a := h01 x y
    have b := h01 (x - 1) y
    omega
  cases D with
  | nil =>
    refine ⟨evsOk_congr h1 (fun x i y => ?_), evsOk_congr h2 (fun x i y => ?_)⟩ <;> simp [cu]
  | cons v r =>
    have e : populate umax d (v :: r) id = populateGo id v.x v.y v.c d r := by
      rw [populate, populateGo]
      by_cases h : v.x ≠ umax
      · rw [if_pos h]
      · rw [if_neg h]
        have h : v.x = umax := by simpa using h
        simp [h]
    rw [e]
    have hr2 : ∀ w ∈ r, v.x < w.x ∨ (v.x = w.x ∧ v.y ≤ w.y) := fun w hw => ((List.pairwise_cons.mp hD.1).1 w hw).1
    have hz : ∀ sg x y, ¬ Met (v :: r) v.x v.y sg x y := by
      rintro sg x y ⟨h, h'⟩
      rw [cu_zero (fun w hw hwx => by
        rcases List.mem_cons.mp hw with rfl | hw
        · omega
        · have := hr2 w hw; omega)] at h'
      omega
    refine populateGo_spec id hD hcl hb hl hr r [v] v.x v.y v.c d rfl ⟨v, by simp, rfl, rfl⟩ (by simp) hr2 ?_ ?_ ?_
    · rw [cu_cons, if_pos ⟨rfl, le_refl _⟩]; simp [cu]
    · exact evsOk_congr h1 (fun x i y => by simp [hz])
    · exact evsOk_congr h2 (fun x i y => by simp [hz])

/-! ### Several sets -/

/-- The cells of the sets inserted so far. -/
def cells (L : List PSet) (i : Nat) (x y : Int) : Prop := ∃ s, L[i]? = some s ∧ 0 < coverZ s.data x y

structure ConnOk (c : Conn) (L : List PSet) : Prop where
  count : c.nodeCount = L.length
  left : EvsOk c.tsd.left (fun x i y => cells L i x y ∧ ¬ cells L i (x - 1) y)
  right : EvsOk c.tsd.right (fun x i y => ¬ cells L i x y ∧ cells L i (x - 1) y)

theorem connOk_new : ConnOk Conn.new [] :=
  ⟨rfl, evsOk_congr evsOk_nil (by simp [cells]), evsOk_congr evsOk_nil (by simp [cells])⟩

theorem cells_append {L : List PSet} {s : PSet} {i : Nat} {x y : Int} :
    cells (L ++ [s]) i x y ↔ cells L i x y ∨ (i = L.length ∧ 0 < coverZ s.data x y) := by
  unfold cells
  by_cases h : i < L.length
  · rw [List.getElem?_append_left h]
    constructor
    · exact Or.inl
    · rintro (h' | h')
      · exact h'
      · omega
  · have hn : L[i]? = none := List.getElem?_eq_none (by omega)
    by_cases h' : i = L.length
    · subst h'; simp
    · rw [List.getElem?_eq_none (by simp; omega), hn]
      simp [h']

theorem insert_ok {umin umax : Int} {c : Conn} {L : List PSet} (h : ConnOk c L) {s : PSet} (hs : Valid umin umax s) :
    ∃ c', c.insert umax s = some c' ∧ ConnOk c' (L ++ [s]) := by
  obtain ⟨t, e1, -, -, -, hc, hv, hd⟩ := clean_spec hs
  have h01 : ∀ a y, coverZ t.data a y = 0 ∨ coverZ t.data a y = 1 := by
    intro a y
    rw [hd]; unfold Verif.BooleanOp.ind; split_ifs <;> simp
  have hnew : ∀ x y, ¬ cells L L.length x y := by simp [cells]
  have hpos : ∀ x y, (0 < coverZ s.data x y ↔ coverZ t.data x y = 1) := by
    intro x y
    rw [hd]; unfold Verif.BooleanOp.ind
    by_cases h : 0 < coverZ s.data x y <;> simp [h]
  have hL : ∀ x y, 0 < cu t.data x y ↔ 0 < coverZ s.data x y ∧ ¬ 0 < coverZ s.data (x - 1) y := by
    intro x y
    rw [cu_eq, hpos, hpos]
    have a := h01 x y
    have b := h01 (x - 1) y
    omega
  have hR : ∀ x y, cu t.data x y < 0 ↔ ¬ 0 < coverZ s.data x y ∧ 0 < coverZ s.data (x - 1) y := by
    intro x y
    rw [cu_eq, hpos, hpos]
    have a := h01 x y
    have b := h01 (x - 1) y
    omega
  obtain ⟨p1, p2⟩ := populate_spec umax c.nodeCount hc hv.closed h01
    (fun x y hh => by rw [h.count] at hh; exact hnew _ _ hh.1) (fun x y hh => by rw [h.count] at hh; exact hnew _ _ hh.2) c.tsd h.left h.right
  refine ⟨_, by simp [Conn.insert, e1]; rfl, ⟨by simp [h.count], ?_, ?_⟩⟩
  · refine evsOk_congr p1 (fun x i y => ?_)
    rw [hL, cells_append, cells_append, h.count]
    by_cases hi : i = L.length
    · subst hi; simp [hnew]
    · simp [hi]
  · refine evsOk_congr p2 (fun x i y => ?_)
    rw [hR, cells_append, cells_append, h.count]
    by_cases hi : i = L.length
    · subst hi; simp [hnew]
    · simp [hi]

theorem insertAll_ok {umin umax : Int} : ∀ (ss : List PSet) (c : Conn) (L : List PSet), ConnOk c L → (∀ s ∈ ss, Valid umin umax s) →
    ∃ c', c.insertAll umax ss = some c' ∧ ConnOk c' (L ++ ss) := by
  intro ss
  induction ss with
  | nil => intro c L h _; exact ⟨c, rfl, by simpa using h⟩
  | cons s ss ih =>
    intro c L h hv
    obtain ⟨c1, e1, h1⟩ := insert_ok h (hv s (by simp))
    obtain ⟨c2, e2, h2⟩ := ih c1 _ h1 (fun x hx => hv x (by simp [hx]))
    exact ⟨c2, by simp [Conn.insertAll, e1, e2], by simpa using h2⟩

theorem extract_spec {umin umax : Int} {c : Conn} {L : List PSet} (h : ConnOk c L) (hv : ∀ s ∈ L, Valid umin umax s) :
    ∃ g, c.extract = some g ∧ ∀ p, p ∈ g ↔ ∃ X, Meets (cells L) X p := by
  have hlow : ∀ i x y, x < umin → ¬ cells L i x y := by
    rintro i x y hx ⟨s, hs, hc⟩
    have hr := (hv s (List.mem_of_getElem? hs)).range
    rw [cover_zero_left (X := umin) (fun v hv => by have := hr v hv; omega) hx] at hc
    omega
  have hhigh : ∀ i x y, umax ≤ x → ¬ cells L i x y := by
    rintro i x y hx ⟨s, hs, hc⟩
    have hr := (hv s (List.mem_of_getElem? hs)).range
    have := cover_zero_right (hv s (List.mem_of_getElem? hs)).closed (X := umax) (fun v hv => by have := hr v hv; omega) (a := x) (y := y) hx
    omega
  obtain ⟨g, e1, e2⟩ := touchGo_spec (f := cells L) (B := umax) hhigh _ c.tsd.left c.tsd.right (umin - 1) [] State.init rfl
    (evsOk_congr h.left (fun x i y => by
      constructor
      · rintro ⟨h1, h2⟩
        refine ⟨?_, h1, h2⟩
        by_contra hc
        exact hlow i x y (by omega) h1
      · exact And.right))
    (fun e he => by
      obtain ⟨i, y, -, h2⟩ := h.right.ne e he
      by_contra hc
      exact hlow i _ y (by omega) h2)
    (evsOk_congr h.right (fun x i y => by
      constructor
      · rintro ⟨h1, h2⟩
        refine ⟨Or.inl ?_, h1, h2⟩
        by_contra hc
        exact hlow i _ y (by omega) h2
      · exact And.right))
    List.Pairwise.nil rfl
    (fun i y => by
      have h1 := hlow i (umin - 1) y (by omega)
      have h2 := hlow i (umin - 1 - 1) y (by omega)
      simp only [h1, h2, and_false, or_false, iff_false]
      show i ∉ ([] : List Nat)
      simp)
    (fun p => by
      simp only [List.not_mem_nil, false_iff]
      rintro ⟨c, d, x, y1, y2, hx, hc, -⟩
      rcases hc with hc | hc
      · exact hlow _ _ _ (by omega) hc
      · exact hlow _ _ _ (by omega) hc)
  exact ⟨g, e1, e2⟩

/-- Cells of two sets that share at least a corner. -/
theorem meets_iff (f : Nat → Int → Int → Prop) (i j : Nat) :
    (∃ X, Meets f X (i, j)) ↔ i ≠ j ∧ ∃ x y x' y', f i x y ∧ f j x' y' ∧ x - 1 ≤ x' ∧ x' ≤ x + 1 ∧ y - 1 ≤ y' ∧ y' ≤ y + 1 := by
  constructor
  · rintro ⟨X, c, d, x, y1, y2, hx, hc, hd, h1, h2, hne, hk⟩
    have hc' : ∃ a, f c a y1 ∧ (a = x - 1 ∨ a = x) := by
      rcases hc with hc | hc
      · exact ⟨_, hc, Or.inl rfl⟩
      · exact ⟨_, hc, Or.inr rfl⟩
    have hd' : ∃ a, f d a y2 ∧ (a = x - 1 ∨ a = x) := by
      rcases hd with hd | hd
      · exact ⟨_, hd, Or.inl rfl⟩
      · exact ⟨_, hd, Or.inr rfl⟩
    obtain ⟨a, ha, ha'⟩ := hc'
    obtain ⟨b, hb, hb'⟩ := hd'
    rcases hk with hk | hk
    · obtain ⟨rfl, rfl⟩ := Prod.mk.inj hk
      exact ⟨hne, a, y1, b, y2, ha, hb, by omega, by omega, by omega, by omega⟩
    · obtain ⟨rfl, rfl⟩ := Prod.mk.inj hk
      exact ⟨hne.symm, b, y2, a, y1, hb, ha, by omega, by omega, by omega, by omega⟩
  · rintro ⟨hne, x, y, x', y', h1, h2, h3, h4, h5, h6⟩
    refine ⟨max x x', i, j, max x x', y, y', le_refl _, ?_, ?_, h5, h6, hne, Or.inl rfl⟩
    · by_cases h : x' ≤ x
      · rw [max_eq_left h]; exact Or.inr h1
      · rw [max_eq_right (by omega), show x' - 1 = x by omega]; exact Or.inl h1
    · by_cases h : x' ≤ x
      · rw [max_eq_left h]
        by_cases hx : x' = x
        · rw [← hx]; exact Or.inr h2
        · rw [show x - 1 = x' by omega]; exact Or.inl h2
      · rw [max_eq_right (by omega)]; exact Or.inr h2

end Verif.Touch
