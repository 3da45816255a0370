import Verif.Model.BooleanOp
import Mathlib.Data.List.Basic
import Mathlib.Data.List.Pairwise
import Mathlib.Algebra.BigOperators.Group.List.Basic
import Mathlib.Algebra.BigOperators.Group.List.Lemmas
import Mathlib.Tactic.Ring
import Mathlib.Tactic.Linarith
import Mathlib.Tactic.SplitIfs
import Mathlib.Tactic.Push
/-!
Helper lemmas: sorted association lists, and the refinement of `processInterval` to an
update of a step function.
-/
namespace Verif.BooleanOp

variable {T : Type}

def Sorted (m : Map T) : Prop := m.Pairwise (fun a b => a.1 < b.1)
def KLt (m : Map T) (p : Int) : Prop := ∀ e ∈ m, e.1 < p
def KGt (m : Map T) (p : Int) : Prop := ∀ e ∈ m, p < e.1
def KGe (m : Map T) (p : Int) : Prop := ∀ e ∈ m, p ≤ e.1

/-- The step function denoted by a map: value of the last key not above `y`. -/
def valD (d : T) : Map T → Int → T
  | [], _ => d
  | e :: r, y => if y < e.1 then d else valD e.2 r y

def lastVal (d : T) : Map T → T
  | [] => d
  | e :: r => lastVal e.2 r

theorem valD_lt {d : T} {m : Map T} {y : Int} (h : KGt m y) : valD d m y = d := by
  cases m with
  | nil => rfl
  | cons e r => simp [valD, h e (by simp)]

theorem valD_append_left {d : T} {X Y : Map T} {y : Int} (h : KGt Y y) :
    valD d (X ++ Y) y = valD d X y := by
  induction X generalizing d with
  | nil => simp [valD, valD_lt h]
  | cons e r ih => simp [valD, ih]

theorem valD_append_right {d : T} {X Y : Map T} {y : Int} (h : ∀ e ∈ X, e.1 ≤ y) :
    valD d (X ++ Y) y = valD (lastVal d X) Y y := by
  induction X generalizing d with
  | nil => rfl
  | cons e r ih =>
    have h1 := h e (by simp)
    simp only [List.cons_append, valD, lastVal]
    rw [if_neg (by omega), ih (fun e he => h e (by simp [he]))]

theorem valD_of_le {d : T} {X : Map T} {y : Int} (h : ∀ e ∈ X, e.1 ≤ y) :
    valD d X y = lastVal d X := by
  have := valD_append_right (d := d) (Y := []) h
  simpa [valD] using this

theorem lastVal_append {d : T} {X Y : Map T} : lastVal d (X ++ Y) = lastVal (lastVal d X) Y := by
  induction X generalizing d with
  | nil => rfl
  | cons e r ih => simp [lastVal, ih]

theorem valD_map_add [Add T] {d δ : T} {X : Map T} {y : Int} :
    valD (d + δ) (X.map (fun e => (e.1, e.2 + δ))) y = valD d X y + δ := by
  induction X generalizing d with
  | nil => rfl
  | cons e r ih => simp only [List.map_cons, valD, ih]; split <;> rfl

/-! ### Iterator lemmas -/

theorem sorted_append {X Y : Map T} :
    Sorted (X ++ Y) ↔ Sorted X ∧ Sorted Y ∧ ∀ a ∈ X, ∀ b ∈ Y, a.1 < b.1 := List.pairwise_append

theorem sorted_cons {e : Int × T} {Y : Map T} :
    Sorted (e :: Y) ↔ KGt Y e.1 ∧ Sorted Y := List.pairwise_cons

theorem beginIt_append_cons (e : Int × T) (X Y : Map T) : beginIt ((e :: X) ++ Y) = some e.1 := rfl

theorem beginIt_append_of_nil (Y : Map T) : beginIt (([] : Map T) ++ Y) = beginIt Y := rfl

theorem lowerBound_append {A R : Map T} {p : Int} (hA : KLt A p) (hR : KGe R p) :
    lowerBound (A ++ R) p = beginIt R := by
  induction A with
  | nil =>
    cases R with
    | nil => rfl
    | cons e r => simp [lowerBound, beginIt, hR e (by simp)]
  | cons a A ih =>
    have h1 := hA a (by simp)
    simp only [lowerBound, List.cons_append] at ih ⊢
    rw [List.find?_cons_of_neg (by simpa using h1)]
    exact ih (fun e he => hA e (by simp [he]))

theorem valAt_append {A R : Map T} {k : Int} {v : T} (hA : KLt A k) :
    valAt (A ++ (k, v) :: R) k = some v := by
  induction A with
  | nil => simp [valAt]
  | cons a A ih =>
    have h1 := hA a (by simp)
    simp only [valAt, List.cons_append] at ih ⊢
    rw [List.find?_cons_of_neg (by simp; omega)]
    exact ih (fun e he => hA e (by simp [he]))

theorem validIt_mem {m : Map T} {e : Int × T} (h : e ∈ m) : validIt m (some e.1) = true := by
  simp only [validIt, List.any_eq_true]
  exact ⟨e, h, by simp⟩

theorem validIt_begin {A R : Map T} : validIt (A ++ R) (beginIt R) = true := by
  cases R with
  | nil => rfl
  | cons e r => exact validIt_mem (by simp)

theorem nextIt_append {A R : Map T} {k : Int} {v : T} (hA : KLt A k) :
    nextIt (A ++ (k, v) :: R) k = some (beginIt R) := by
  induction A with
  | nil => simp [nextIt]
  | cons a A ih =>
    have h1 := hA a (by simp)
    simp only [List.cons_append, nextIt]
    rw [if_neg (by omega)]
    exact ih (fun e he => hA e (by simp [he]))

theorem prevOf_append {A R : Map T} {p q : Int × T} (hs : Sorted (A ++ p :: q :: R)) :
    prevOf (A ++ p :: q :: R) q.1 = some p.1 := by
  induction A with
  | nil => simp [prevOf]
  | cons a A ih =>
    have hs' : Sorted (A ++ p :: q :: R) := hs.tail
    cases A with
    | nil =>
      have : p.1 < q.1 := by
        simp only [Sorted, List.nil_append, List.pairwise_cons] at hs'
        exact hs'.1 q (by simp)
      simp only [List.cons_append, List.nil_append, prevOf]
      rw [if_neg (by omega)]
      simp
    | cons b A =>
      have : b.1 < q.1 := by
        simp only [List.cons_append, Sorted, List.pairwise_cons] at hs'
        exact hs'.1 q (by simp)
      simp only [List.cons_append, prevOf] at ih ⊢
      rw [if_neg (by omega)]
      exact ih hs'

theorem prevIt_append {A R : Map T} {p : Int × T} (hs : Sorted (A ++ p :: R)) :
    prevIt (A ++ p :: R) (beginIt R) = some p.1 := by
  cases R with
  | nil => simp [prevIt, beginIt]
  | cons q R => exact prevOf_append hs

theorem insertKV_append {A R : Map T} {k : Int} {v : T} (hA : KLt A k) (hR : KGt R k) :
    insertKV (A ++ R) k v = A ++ (k, v) :: R := by
  induction A with
  | nil =>
    cases R with
    | nil => rfl
    | cons e r => simp [insertKV, hR e (by simp)]
  | cons a A ih =>
    have h1 := hA a (by simp)
    simp only [List.cons_append, insertKV]
    rw [if_neg (by omega), if_neg (by omega), ih (fun e he => hA e (by simp [he]))]

theorem eraseK_append {A R : Map T} {k : Int} {v : T} (hA : KLt A k) (hR : KGt R k) :
    eraseK (A ++ (k, v) :: R) k = A ++ R := by
  unfold eraseK
  rw [List.filter_append, List.filter_cons_of_neg (by simp)]
  congr 1
  · rw [List.filter_eq_self]; intro a ha; have := hA a ha; simp; omega
  · rw [List.filter_eq_self]; intro a ha; have := hR a ha; simp; omega

theorem setK_append {A R : Map T} {k : Int} {u v : T} (hA : KLt A k) (hR : KGt R k) :
    setK (A ++ (k, u) :: R) k v = A ++ (k, v) :: R := by
  unfold setK
  rw [List.map_append, List.map_cons]
  simp only [if_true]
  congr 1
  · conv_rhs => rw [← List.map_id A]
    apply List.map_congr_left; intro a ha; have := hA a ha; simp; omega
  · congr 1
    conv_rhs => rw [← List.map_id R]
    apply List.map_congr_left; intro a ha; have := hR a ha; simp; omega

/-! ### lookup -/

/-- The fast path of `lookup_` is sound: everything before `nextItr_` is below `p`. -/
def NextOK (s : State T) (p : Int) : Prop :=
  ∃ A R, s.scan = A ++ R ∧ s.next = beginIt R ∧ KLt A p

theorem NextOK.mono {s : State T} {p q : Int} (h : NextOK s p) (hpq : p ≤ q) : NextOK s q := by
  obtain ⟨A, R, h1, h2, h3⟩ := h
  exact ⟨A, R, h1, h2, fun e he => by have := h3 e he; omega⟩

theorem nextOK_advance (s : State T) (p : Int) : NextOK s.advance p :=
  ⟨[], s.scan, rfl, rfl, by simp [KLt]⟩

theorem split_at (m : Map T) (hs : Sorted m) (p : Int) :
    ∃ A R, m = A ++ R ∧ KLt A p ∧ KGe R p := by
  induction m with
  | nil => exact ⟨[], [], rfl, by simp [KLt], by simp [KGe]⟩
  | cons e r ih =>
    by_cases h : e.1 < p
    · obtain ⟨A, R, h1, h2, h3⟩ := ih hs.tail
      refine ⟨e :: A, R, by rw [h1]; rfl, ?_, h3⟩
      intro x hx
      rcases List.mem_cons.mp hx with rfl | hx
      · exact h
      · exact h2 x hx
    · refine ⟨[], e :: r, rfl, by simp [KLt], ?_⟩
      intro x hx
      rcases List.mem_cons.mp hx with rfl | hx
      · omega
      · have := (sorted_cons.mp hs).1 x hx; omega

theorem lookup_eq {s : State T} {p : Int} {A R : Map T} (hn : NextOK s p) (hm : s.scan = A ++ R)
    (hs : Sorted s.scan) (hA : KLt A p) (hR : KGe R p) :
    lookup s p = (beginIt R, ⟨s.scan, beginIt R⟩) := by
  have lb : lowerBound s.scan p = beginIt R := by rw [hm]; exact lowerBound_append hA hR
  obtain ⟨A', R', h1, h2, h3⟩ := hn
  unfold lookup
  split
  · next k hk =>
    split
    · next hkp =>
      have : s.next = beginIt R := by
        rw [← lb, h1, lowerBound_append h3, h2]
        intro e he
        rw [h2] at hk
        cases R' with
        | nil => simp at he
        | cons q R' =>
          simp only [beginIt, List.head?_cons, Option.map_some, Option.some.injEq] at hk
          rcases List.mem_cons.mp he with rfl | he
          · omega
          · rw [h1, sorted_append] at hs
            have := (sorted_cons.mp hs.2.1).1 e he
            omega
      rw [← this, hk, Prod.mk.injEq]
      exact ⟨rfl, by cases s; simp only at hk; rw [hk]⟩
    · simp only [lb]
  · simp only [lb]

/-! ### walk -/

/-- Elements produced for consecutive entries up to `hi`. -/
def piecesOf [Add T] (pos : T → Bool) (δ : T) (hi : Int) : Map T → List Piece
  | [] => []
  | [e] => evaluate pos e.1 hi e.2 (e.2 + δ)
  | e :: f :: r => evaluate pos e.1 f.1 e.2 (e.2 + δ) ++ piecesOf pos δ hi (f :: r)

theorem walk_eq [Add T] [Zero T] (pos : T → Bool) (δ : T) (hi : Int) (w : T) (C : Map T) (B : Map T) :
    ∀ (A : Map T) (k : Int) (v : T) (fuel : Nat) (out : List Piece),
    Sorted (A ++ (k, v) :: B ++ (hi, w) :: C) → B.length + 1 < fuel →
    walk pos δ hi fuel (A ++ (k, v) :: B ++ (hi, w) :: C) k out =
      some (A ++ ((k, v) :: B).map (fun e => (e.1, e.2 + δ)) ++ (hi, w) :: C,
        out ++ piecesOf pos δ hi ((k, v) :: B)) := by
  induction B with
  | nil =>
    intro A k v fuel out hs hf
    obtain ⟨f, rfl⟩ : ∃ f, fuel = f + 2 := ⟨fuel - 2, by simp at hf; omega⟩
    simp only [List.append_assoc, List.cons_append, List.nil_append] at hs ⊢
    have hs2 := sorted_append.mp hs
    have hA : KLt A k := fun e he => hs2.2.2 e he (k, v) (by simp)
    have hR := (sorted_cons.mp hs2.2.1).1
    have hk : k < hi := hR (hi, w) (by simp)
    rw [walk, if_neg (by omega), valAt_append hA]
    simp only [Option.bind_eq_bind, Option.bind_some]
    rw [setK_append hA hR, nextIt_append hA]
    simp only [Option.bind_some, beginIt, List.head?_cons, Option.map_some]
    rw [walk, if_pos rfl]
    simp [piecesOf]
  | cons b B ih =>
    intro A k v fuel out hs hf
    obtain ⟨f, rfl⟩ : ∃ f, fuel = f + 1 := ⟨fuel - 1, by omega⟩
    have hs' := hs
    simp only [List.append_assoc, List.cons_append] at hs ⊢
    have hs2 := sorted_append.mp hs
    have hA : KLt A k := fun e he => hs2.2.2 e he (k, v) (by simp)
    have hR := (sorted_cons.mp hs2.2.1).1
    have hk : k < hi := hR (hi, w) (by simp)
    rw [walk, if_neg (by omega), valAt_append hA]
    simp only [Option.bind_eq_bind, Option.bind_some]
    rw [setK_append hA hR, nextIt_append hA]
    simp only [Option.bind_some, beginIt, List.head?_cons, Option.map_some]
    have := ih (A ++ [(k, v + δ)]) b.1 b.2 f (out ++ evaluate pos k b.1 v (v + δ)) (by
      simp only [List.append_assoc, List.cons_append, List.nil_append]
      rw [sorted_append]
      refine ⟨hs2.1, ?_, ?_⟩
      · rw [sorted_cons]; exact ⟨hR, (sorted_cons.mp hs2.2.1).2⟩
      · intro a ha c hc
        rcases List.mem_cons.mp hc with rfl | hc
        · exact hA a ha
        · exact hs2.2.2 a ha c (by simp; right; simpa using hc)) (by simp at hf; omega)
    simp only [List.append_assoc, List.cons_append, List.nil_append, Prod.mk.eta] at this
    rw [this]
    simp [piecesOf]

/-! ### pieces -/

def ind (b : Bool) : Int := if b then 1 else 0

/-- Contribution of a list of elements at `y`. -/
def psum : List Piece → Int → Int
  | [], _ => 0
  | p :: r, y => (if p.1 ≤ y ∧ y < p.2.1 then p.2.2 else 0) + psum r y

theorem psum_append (a b : List Piece) (y : Int) : psum (a ++ b) y = psum a y + psum b y := by
  induction a with
  | nil => simp [psum]
  | cons p r ih => simp only [List.cons_append, psum, ih]; ring

/-- Elements are non-empty, in order, inside `[lo, hi]`, with value ±1. -/
def PiecesOK : List Piece → Int → Int → Prop
  | [], lo, hi => lo ≤ hi
  | p :: r, lo, hi => lo ≤ p.1 ∧ p.1 < p.2.1 ∧ (p.2.2 = 1 ∨ p.2.2 = -1) ∧ PiecesOK r p.2.1 hi

theorem PiecesOK.le {l : List Piece} {lo hi : Int} (h : PiecesOK l lo hi) : lo ≤ hi := by
  induction l generalizing lo with
  | nil => exact h
  | cons p r ih => have := ih h.2.2.2; have := h.1; have := h.2.1; omega

theorem PiecesOK.mono {l : List Piece} {lo lo' hi : Int} (h : PiecesOK l lo hi) (hl : lo' ≤ lo) :
    PiecesOK l lo' hi := by
  cases l with
  | nil => simp only [PiecesOK] at *; omega
  | cons p r => simp only [PiecesOK] at *; exact ⟨by omega, h.2⟩

theorem PiecesOK.append {a b : List Piece} {lo mi hi : Int} (ha : PiecesOK a lo mi)
    (hb : PiecesOK b mi hi) : PiecesOK (a ++ b) lo hi := by
  induction a generalizing lo with
  | nil => exact hb.mono ha
  | cons p r ih => exact ⟨ha.1, ha.2.1, ha.2.2.1, ih ha.2.2.2⟩

theorem psum_out {l : List Piece} {lo hi y : Int} (h : PiecesOK l lo hi) (hy : y < lo ∨ hi ≤ y) :
    psum l y = 0 := by
  induction l generalizing lo with
  | nil => rfl
  | cons p r ih =>
    obtain ⟨h1, h2, -, h4⟩ := h
    have := h4.le
    simp only [psum]
    rw [ih h4 (by omega), if_neg (by omega)]; rfl

theorem evaluate_ok (pos : T → Bool) {lo hi : Int} (h : lo < hi) (a b : T) :
    PiecesOK (evaluate pos lo hi a b) lo hi ∧
    ∀ y, psum (evaluate pos lo hi a b) y = if lo ≤ y ∧ y < hi then ind (pos b) - ind (pos a) else 0 := by
  unfold evaluate
  rcases h1 : pos a with _ | _ <;> rcases h2 : pos b with _ | _ <;>
    simp [PiecesOK, psum, ind, h, h.le]

theorem piecesOf_ok [Add T] (pos : T → Bool) (δ : T) {hi : Int} (B : Map T) :
    ∀ (k : Int) (v : T) (d : T), Sorted ((k, v) :: B) → KLt ((k, v) :: B) hi →
    PiecesOK (piecesOf pos δ hi ((k, v) :: B)) k hi ∧
    ∀ y, psum (piecesOf pos δ hi ((k, v) :: B)) y =
      if k ≤ y ∧ y < hi then ind (pos (valD d ((k, v) :: B) y + δ)) - ind (pos (valD d ((k, v) :: B) y))
      else 0 := by
  induction B with
  | nil =>
    intro k v d _ hk
    have h1 : k < hi := hk (k, v) (by simp)
    obtain ⟨h2, h3⟩ := evaluate_ok pos h1 v (v + δ)
    refine ⟨h2, fun y => ?_⟩
    simp only [piecesOf, h3, valD]
    by_cases h : k ≤ y ∧ y < hi
    · rw [if_pos h, if_pos h, if_neg (by omega)]
    · rw [if_neg h, if_neg h]
  | cons b B ih =>
    intro k v d hs hk
    obtain ⟨hs1, hs2⟩ := sorted_cons.mp hs
    have h1 : k < b.1 := hs1 b (by simp)
    have hb : b.1 < hi := hk b (by simp)
    obtain ⟨h2, h3⟩ := evaluate_ok pos h1 v (v + δ)
    obtain ⟨h4, h5⟩ := ih b.1 b.2 v hs2 (fun e he => hk e (List.mem_cons_of_mem _ he))
    refine ⟨h2.append h4, fun y => ?_⟩
    rw [piecesOf, psum_append, h3]
    have := h5 y
    simp only [Prod.mk.eta] at this
    rw [this]
    have e1 : valD d ((k, v) :: b :: B) y = if y < k then d else valD v (b :: B) y := rfl
    rw [e1]
    by_cases c1 : y < k
    · rw [if_neg (by omega), if_neg (by omega), if_neg (by omega)]; rfl
    · by_cases c2 : y < b.1
      · rw [if_pos (by omega), if_neg (by omega), if_pos (by omega), if_neg c1]
        simp [valD, c2]
      · by_cases c3 : y < hi
        · rw [if_neg (by omega), if_pos (by omega), if_pos (by omega), if_neg c1]; omega
        · rw [if_neg (by omega), if_neg (by omega), if_neg (by omega)]; rfl

end Verif.BooleanOp
