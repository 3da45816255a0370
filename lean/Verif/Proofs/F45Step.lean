import Verif.Proofs.F45Arb
import Verif.Proofs.FormScan
/-!
# The 45-degree formation follows the formation at any angle: one point
-/
namespace Verif.F45
open Verif.ArbForm Verif.Arb
open Verif.Contains (lessPoint)
open Verif.Deg45 (V45 Quad)
open Verif.Set45 (VC)

/-! ### Heights and order -/

theorem slope_rho {e : HE} (h : NV e) (ho : Oct2 e.1 e.2) : slope e = (rho e.1 e.2 : ℚ) := by
  have hd : (e.2.1 : ℚ) - e.1.1 ≠ 0 := by
    have : (e.1.1 : ℚ) < e.2.1 := by exact_mod_cast h
    linarith
  have h' : e.1.1 < e.2.1 := h
  unfold slope rho
  rw [if_neg (by omega)]
  unfold Oct2 at ho
  by_cases c : e.2.2 = e.1.2
  · rw [if_pos c, c]; simp
  · rw [if_neg c]
    by_cases d : e.1.2 < e.2.2
    · rw [if_pos d, div_eq_iff hd]
      have : e.2.2 - e.1.2 = e.2.1 - e.1.1 := by omega
      push_cast
      rw [one_mul]
      exact_mod_cast this
    · rw [if_neg d, div_eq_iff hd]
      have : e.2.2 - e.1.2 = -(e.2.1 - e.1.1) := by omega
      push_cast
      rw [neg_one_mul]
      exact_mod_cast this

theorem Y_rho {e : HE} (h : NV e) (ho : Oct2 e.1 e.2) (t : ℚ) : Y e t = e.1.2 + rho e.1 e.2 * (t - e.1.1) := by
  rw [← slope_rho h ho]
  unfold Y Verif.Spec.lineY slope
  ring

theorem eval_Y {e : HE} (h : NV e) (ho : Oct2 e.1 e.2) (c x : Int) : ((Form45.eval ⟨e.1, rho e.1 e.2, c⟩ x : Int) : ℚ) = Y e x := by
  rw [Y_rho h ho]
  unfold Form45.eval
  push_cast
  ring

theorem rho_cases (p o : Pt) : rho p o = -1 ∨ rho p o = 0 ∨ rho p o = 1 ∨ rho p o = 2 := by
  unfold rho
  split_ifs <;> simp

theorem rho_nv {e : HE} (h : NV e) : rho e.1 e.2 = -1 ∨ rho e.1 e.2 = 0 ∨ rho e.1 e.2 = 1 := by
  have h2 : rho e.1 e.2 ≠ 2 := by
    rw [Ne, rho_two]
    have : e.1.1 < e.2.1 := h
    omega
  have := rho_cases e.1 e.2
  omega

theorem lt_ins {e f : HE} (hs : Sep e f) {x : Int} (se : RSpan x e) (sf : RSpan x f) (oe : Oct2 e.1 e.2) (of : Oct2 f.1 f.2) (c d : Int) :
    Form45.less x false ⟨e.1, rho e.1 e.2, c⟩ ⟨f.1, rho f.1 f.2, d⟩ = true ↔ Lt e f := by
  have hx : ∀ g : HE, RSpan x g → ((g.1.1 : ℚ) < x + 1/4 ∧ (x : ℚ) + 1/4 < g.2.1) := by
    intro g hg
    have h1 : (g.1.1 : ℚ) ≤ x := by exact_mod_cast hg.1
    have h2 : (x : ℚ) + 1 ≤ g.2.1 := by exact_mod_cast hg.2
    constructor <;> linarith
  obtain ⟨e1, e2⟩ := hx e se
  obtain ⟨f1, f2⟩ := hx f sf
  have hL : Lt e f ↔ Y e ((x : ℚ) + 1/4) < Y f ((x : ℚ) + 1/4) := ⟨fun h => lt_lt hs h e1 e2 f1 f2, fun h => ⟨_, e1, e2, f1, f2, h⟩⟩
  have key : ∀ g : HE, NV g → Oct2 g.1 g.2 → ∀ c, Y g ((x : ℚ) + 1/4) = (Form45.eval ⟨g.1, rho g.1 g.2, c⟩ x : Int) + (rho g.1 g.2 : ℚ) / 4 := by
    intro g hg og c
    rw [eval_Y hg og, Y_rho hg og, Y_rho hg og]
    ring
  have ne : NV e := lt_of_le_of_lt se.1 se.2
  have nf : NV f := lt_of_le_of_lt sf.1 sf.2
  rw [hL, key e ne oe c, key f nf of d]
  unfold Form45.less
  have r1 := rho_nv ne
  have r2 := rho_nv nf
  generalize Form45.eval ⟨e.1, rho e.1 e.2, c⟩ x = a
  generalize Form45.eval ⟨f.1, rho f.1 f.2, d⟩ x = b
  have hq : ((a : ℚ) + (rho e.1 e.2 : ℚ) / 4 < b + (rho f.1 f.2 : ℚ) / 4) ↔ 4 * a + rho e.1 e.2 < 4 * b + rho f.1 f.2 := by
    rw [← @Int.cast_lt ℚ]
    push_cast
    constructor <;> intro h <;> linarith
  rw [hq]
  dsimp only
  generalize rho e.1 e.2 = r at *
  generalize rho f.1 f.2 = s at *
  by_cases h1 : a < b
  · rw [if_pos h1]; simp; omega
  · rw [if_neg h1]
    by_cases h2 : a = b
    · rw [if_pos h2]; simp; omega
    · rw [if_neg h2]; simp; omega

/-! ### The slots -/

theorem slots4 {α β : Type} (key : α → Int) (val : α → Int × β) (f : Int → Int × β) : ∀ (M : List α), M.Pairwise (fun a b => key a < key b) →
    (∀ a ∈ M, key a = -1 ∨ key a = 0 ∨ key a = 1 ∨ key a = 2) → (∀ a ∈ M, (val a).1 ≠ 0) → (∀ a ∈ M, f (key a) = val a) →
    (∀ r, (r = -1 ∨ r = 0 ∨ r = 1 ∨ r = 2) → (∀ a ∈ M, key a ≠ r) → (f r).1 = 0) → nzs [f (-1), f 0, f 1, f 2] = M.map val := by
  -- from a slope upwards
  have step : ∀ (R : List Int), R.Pairwise (· < ·) → ∀ (M : List α), M.Pairwise (fun a b => key a < key b) → (∀ a ∈ M, key a ∈ R) → (∀ a ∈ M, (val a).1 ≠ 0) →
      (∀ a ∈ M, f (key a) = val a) → (∀ r ∈ R, (∀ a ∈ M, key a ≠ r) → (f r).1 = 0) → nzs (R.map f) = M.map val := by
    intro R
    induction R with
    | nil =>
      intro _ M _ h1 _ _ _
      cases M with
      | nil => rfl
      | cons a r => exact absurd (h1 a List.mem_cons_self) (by simp)
    | cons r R ih =>
      intro hR M hM h1 h2 h3 h4
      have hR' := List.pairwise_cons.1 hR
      rw [List.map_cons]
      by_cases c : ∃ a ∈ M, key a = r
      · obtain ⟨a, ha, hk⟩ := c
        cases M with
        | nil => simp at ha
        | cons b M =>
          have hM' := List.pairwise_cons.1 hM
          have hb : key b = r := by
            rcases List.mem_cons.1 ha with rfl | ha'
            · exact hk
            · have g1 := hM'.1 a ha'
              rcases List.mem_cons.1 (h1 b List.mem_cons_self) with g | g
              · exact g
              · have := hR'.1 _ g; omega
          rw [nzs_pos (by rw [← hb, h3 b List.mem_cons_self]; exact h2 b List.mem_cons_self), List.map_cons, ← hb, h3 b List.mem_cons_self]
          congr 1
          refine ih hR'.2 M hM'.2 ?_ (fun a h => h2 a (List.mem_cons_of_mem _ h)) (fun a h => h3 a (List.mem_cons_of_mem _ h)) ?_
          · intro a h
            rcases List.mem_cons.1 (h1 a (List.mem_cons_of_mem _ h)) with g | g
            · have := hM'.1 a h; omega
            · exact g
          · intro s hs hn
            refine h4 s (List.mem_cons_of_mem _ hs) ?_
            intro a h
            rcases List.mem_cons.1 h with rfl | h
            · have := hR'.1 s hs; omega
            · exact hn a h
      · push Not at c
        rw [nzs_neg (h4 r List.mem_cons_self c)]
        refine ih hR'.2 M hM ?_ h2 h3 (fun s hs => h4 s (List.mem_cons_of_mem _ hs))
        intro a h
        rcases List.mem_cons.1 (h1 a h) with g | g
        · exact absurd g (c a h)
        · exact g
  intro M hM h1 h2 h3 h4
  exact step [-1, 0, 1, 2] (by simp) M hM (by intro a ha; simpa using h1 a ha) h2 h3 (by intro r hr; exact h4 r (by simpa using hr))

/-! ### Edges and the vertex counts they come from -/

/-- The slope of an edge. -/
def erho (e : V) : Int := rho e.1.1 e.1.2

/-- The count of a slope. -/
def qat (q : Quad Int) (r : Int) : Int := if r = -1 then q.n else if r = 0 then q.z else if r = 1 then q.p else q.v

/-- The edges of one slope that begin at a point, and those that end there. -/
def sumS (D : List V) (p : Pt) (r : Int) : Int := ((D.filter (fun e => decide (e.1.1 = p ∧ erho e = r))).map Prod.snd).sum
def sumE (D : List V) (p : Pt) (r : Int) : Int := ((D.filter (fun e => decide (e.1.2 = p ∧ erho e = r))).map Prod.snd).sum

/-- The vertices `E` describe the edges `D`. -/
structure Der (E : List VC) (D : List V) : Prop where
  srt : E.Pairwise (fun v w => plt v.1 w.1)
  vtx : ∀ p, Vertex (evs D) p ↔ ∃ v ∈ E, v.1 = p
  oct : ∀ e ∈ D, Oct2 e.1.1 e.1.2
  slot : ∀ v ∈ E, ∀ r, (r = -1 ∨ r = 0 ∨ r = 1 ∨ r = 2) → qat v.2 r = sumS D v.1 r - sumE D v.1 r

/-- One list of edges with different slopes. -/
theorem sum_pick {M : List V} (h : M.Pairwise (fun a b => erho a ≠ erho b)) {a : V} (ha : a ∈ M) :
    ((M.filter (fun e => decide (erho e = erho a))).map Prod.snd).sum = a.2 := by
  induction M with
  | nil => simp at ha
  | cons b M ih =>
    obtain ⟨h1, h2⟩ := List.pairwise_cons.1 h
    rcases List.mem_cons.1 ha with rfl | ha
    · rw [List.filter_cons_of_pos (by simp), List.filter_eq_nil_iff.2 (fun c hc => by simpa using Ne.symm (h1 c hc))]
      simp
    · rw [List.filter_cons_of_neg (by simpa using h1 a ha)]
      exact ih h2 ha

theorem sum_none {M : List V} {r : Int} (h : ∀ a ∈ M, erho a ≠ r) : ((M.filter (fun e => decide (erho e = r))).map Prod.snd).sum = 0 := by
  rw [List.filter_eq_nil_iff.2 (fun c hc => by simpa using h c hc)]
  rfl

theorem sumS_perm {D M : List V} {p : Pt} (h : M.Perm (D.filter (fun e => decide (e.1.1 = p)))) (r : Int) :
    sumS D p r = ((M.filter (fun e => decide (erho e = r))).map Prod.snd).sum := by
  have := ((h.filter (fun e => decide (erho e = r))).map Prod.snd).sum_eq
  rw [this, List.filter_filter]
  unfold sumS
  congr 2
  apply List.filter_congr
  intro e _
  simp [Bool.and_comm]

theorem sumE_perm {D M : List V} {p : Pt} (h : M.Perm (D.filter (fun e => decide (e.1.2 = p)))) (r : Int) :
    sumE D p r = ((M.filter (fun e => decide (erho e = r))).map Prod.snd).sum := by
  have := ((h.filter (fun e => decide (erho e = r))).map Prod.snd).sum_eq
  rw [this, List.filter_filter]
  unfold sumE
  congr 2
  apply List.filter_congr
  intro e _
  simp [Bool.and_comm]

/-! ### The events -/

/-- The vertices that are left: those at which half edges are left. -/
def todo (E : List VC) (L : List V) : List VC := E.filter (fun v => decide (∃ e ∈ L, e.1.1 = v.1))

theorem todo_nil (E : List VC) : todo E [] = [] := by simp [todo]

theorem todo_cons {E : List VC} {D : List V} (d : Der E D) {dn : Pt → Bool} {ev : V} {r : List V} (h : Events D dn (ev :: r)) :
    ∃ v, v ∈ E ∧ v.1 = ev.1.1 ∧ todo E (ev :: r) = v :: todo E ((ev :: r).dropWhile (fun e => decide (e.1.1 = ev.1.1))) := by
  obtain ⟨hv, hnd⟩ := h.mem List.mem_cons_self
  obtain ⟨v, hvE, hvp⟩ := (d.vtx _).1 hv
  refine ⟨v, hvE, hvp, ?_⟩
  have hn := h.next.2.1
  have hiff : ∀ w ∈ E, (∃ e ∈ ev :: r, e.1.1 = w.1) ↔ w.1 = ev.1.1 ∨ (∃ e ∈ (ev :: r).dropWhile (fun e => decide (e.1.1 = ev.1.1)), e.1.1 = w.1) := by
    intro w hw
    have hwv := (d.vtx w.1).2 ⟨w, hw, rfl⟩
    constructor
    · rintro ⟨e, he, hew⟩
      by_cases c : w.1 = ev.1.1
      · exact Or.inl c
      · right
        refine hn.todo hwv ?_
        have := (h.mem he).2
        rw [hew] at this
        simp [this, c]
    · rintro (c | ⟨e, he, hew⟩)
      · exact ⟨ev, List.mem_cons_self, c.symm⟩
      · exact ⟨e, (List.dropWhile_sublist _).subset he, hew⟩
  obtain ⟨E1, E2, rfl⟩ := List.append_of_mem hvE
  have hs := d.srt
  rw [List.pairwise_append, List.pairwise_cons] at hs
  unfold todo
  have h1 : ∀ L' : List V, (∀ e ∈ L', e ∈ ev :: r) → E1.filter (fun w => decide (∃ e ∈ L', e.1.1 = w.1)) = [] := by
    intro L' hL
    rw [List.filter_eq_nil_iff]
    intro w hw hc
    obtain ⟨e, he, hew⟩ := of_decide_eq_true hc
    have g := h.mem (hL e he)
    have k := hs.2.2 w hw v List.mem_cons_self
    rw [hvp] at k
    rcases h.first g.1 g.2 with q | q
    · rw [← hew, q] at k; unfold plt at k; omega
    · rw [hew] at q; unfold plt at q k; omega
  have hd : ¬ ∃ e ∈ (ev :: r).dropWhile (fun e => decide (e.1.1 = ev.1.1)), e.1.1 = v.1 := by
    rintro ⟨e, he, hev⟩
    have := (hn.mem he).2
    rw [hev, hvp] at this
    simp at this
  rw [List.filter_append, List.filter_append, h1 _ (fun e he => he), h1 _ (fun e he => (List.dropWhile_sublist _).subset he), List.nil_append, List.nil_append,
    List.filter_cons_of_pos (by simp only [decide_eq_true_eq]; exact ⟨ev, List.mem_cons_self, hvp.symm⟩), List.filter_cons_of_neg (by simpa using hd)]
  congr 1
  apply List.filter_congr
  intro w hw
  have := hiff w (by simp [hw])
  have hne : w.1 ≠ ev.1.1 := by
    intro hc
    have k := hs.2.1.1 w hw
    rw [hvp, hc] at k
    unfold plt at k; omega
  rw [Bool.eq_iff_iff, decide_eq_true_eq, decide_eq_true_eq, this]
  simp [hne]

end Verif.F45
