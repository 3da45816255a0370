import Verif.Model.Form45
import Verif.Model.ArbMerge
import Verif.Proofs.ArbMap
/-!
# Model: `property_merge_45` and `connectivity_extraction_45`

`PM` is `/repo/include/boost/polygon/detail/property_merge_45.hpp`, `PT` is `detail/polygon_45_touch.hpp`, `PS45` is
`polygon_45_set_data.hpp`. Properties are integers; coordinates and counts are unbounded. `ArbMap` is imported for the lemmas by which the
vectors of counts are a group, which the scanline needs to know.
-/
namespace Verif.Merge45
open Verif.Deg45 Verif.Set45
open Verif.Arb (PMap)

/-! ### Counts -/

/-- `merge_property_maps`, PT 18-54. -/
def mergeMaps (sub : Bool) : PMap → PMap → PMap
  | [], m2 => m2.map (fun b => (b.1, if sub then b.2 * -1 else b.2))
  | m1, [] => m1
  | a :: r, b :: s =>
    if a.1 < b.1 then a :: mergeMaps sub r (b :: s)
    else if a.1 > b.1 then (b.1, if sub then b.2 * -1 else b.2) :: mergeMaps sub (a :: r) s
    else
      let count := if sub then a.2 - b.2 else a.2 + b.2
      if count ≠ 0 then (a.1, count) :: mergeMaps sub r s else mergeMaps sub r s
  termination_by m1 m2 => m1.length + m2.length

/-- A vector of counts as they come up: properties in increasing order, no count zero. -/
structure Ok (m : PMap) : Prop where
  srt : m.Pairwise (fun a b => a.1 < b.1)
  nz : ∀ a ∈ m, a.2 ≠ 0

theorem mergeMaps_eq (sub : Bool) (m1 m2 : PMap) : mergeMaps sub m1 m2 = Arb.mergeMaps m1 (m2.map (fun b => (b.1, if sub then b.2 * -1 else b.2))) := by
  induction m1, m2 using mergeMaps.induct sub with
  | case1 m2 => rw [mergeMaps, Arb.mergeMaps]
  | case2 m1 h => cases m1 with | nil => exact absurd rfl h | cons a r => simp [mergeMaps, Arb.mergeMaps]
  | case3 a r b s h ih => rw [mergeMaps, List.map_cons, Arb.mergeMaps, if_pos h, if_pos h, ih, List.map_cons]
  | case4 a r b s h1 h2 ih => rw [mergeMaps, List.map_cons, Arb.mergeMaps, if_neg h1, if_pos h2, if_neg h1, if_pos h2, ih]
  | case5 a r b s h1 h2 c hc ih =>
    rw [mergeMaps, List.map_cons, Arb.mergeMaps, if_neg h1, if_neg h2, if_neg h1, if_neg h2]
    have e : a.2 + (if sub then b.2 * -1 else b.2) = if sub then a.2 - b.2 else a.2 + b.2 := by split_ifs <;> ring
    simp only [e]
    rw [ih]
  | case6 a r b s h1 h2 c hc ih =>
    rw [mergeMaps, List.map_cons, Arb.mergeMaps, if_neg h1, if_neg h2, if_neg h1, if_neg h2]
    have e : a.2 + (if sub then b.2 * -1 else b.2) = if sub then a.2 - b.2 else a.2 + b.2 := by split_ifs <;> ring
    simp only [e]
    rw [ih]

theorem arb_nz (m1 m2 : PMap) (h1 : ∀ a ∈ m1, a.2 ≠ 0) (h2 : ∀ a ∈ m2, a.2 ≠ 0) : ∀ a ∈ Arb.mergeMaps m1 m2, a.2 ≠ 0 := by
  induction m1, m2 using Arb.mergeMaps.induct with
  | case1 m2 => rw [Arb.mergeMaps]; exact h2
  | case2 m1 h =>
    have e : Arb.mergeMaps m1 [] = m1 := by cases m1 with | nil => exact absurd rfl h | cons a r => simp [Arb.mergeMaps]
    rw [e]
    exact h1
  | case3 a r b s h ih =>
    rw [Arb.mergeMaps, if_pos h]
    intro c hc
    rcases List.mem_cons.1 hc with rfl | hc
    · exact h1 _ List.mem_cons_self
    · exact ih (fun a ha => h1 a (List.mem_cons_of_mem _ ha)) h2 c hc
  | case4 a r b s h h' ih =>
    rw [Arb.mergeMaps, if_neg h, if_pos h']
    intro c hc
    rcases List.mem_cons.1 hc with rfl | hc
    · exact h2 _ List.mem_cons_self
    · exact ih h1 (fun a ha => h2 a (List.mem_cons_of_mem _ ha)) c hc
  | case5 a r b s h h' h0 ih =>
    rw [Arb.mergeMaps, if_neg h, if_neg h', if_pos h0]
    intro c hc
    rcases List.mem_cons.1 hc with rfl | hc
    · exact h0
    · exact ih (fun a ha => h1 a (List.mem_cons_of_mem _ ha)) (fun a ha => h2 a (List.mem_cons_of_mem _ ha)) c hc
  | case6 a r b s h h' h0 ih =>
    rw [Arb.mergeMaps, if_neg h, if_neg h', if_neg h0]
    exact ih (fun a ha => h1 a (List.mem_cons_of_mem _ ha)) (fun a ha => h2 a (List.mem_cons_of_mem _ ha))

theorem neg_ok {m : PMap} (h : Ok m) (sub : Bool) : Ok (m.map (fun b => (b.1, if sub then b.2 * -1 else b.2))) := by
  refine ⟨List.pairwise_map.2 h.srt, ?_⟩
  intro a ha
  obtain ⟨b, hb, rfl⟩ := List.mem_map.1 ha
  have := h.nz b hb
  dsimp only
  split_ifs <;> omega

theorem mergeMaps_ok {m1 m2 : PMap} (h1 : Ok m1) (h2 : Ok m2) (sub : Bool) : Ok (mergeMaps sub m1 m2) := by
  rw [mergeMaps_eq]
  have h := neg_ok h2 sub
  exact ⟨(Arb.mergeMaps_ok ⟨h1.srt⟩ ⟨h.srt⟩).srt, arb_nz _ _ h1.nz h.nz⟩

/-- `CountMerge` and `CountTouch`, PM 23-70 and PT 56-105. -/
structure Cnt where
  counts : PMap
  ok : Ok counts
deriving DecidableEq

/-- The count of a property; zero if it is not in the vector. -/
def Cnt.get (c : Cnt) (k : Int) : Int := Arb.get c.counts k

theorem Cnt.ext_get {a b : Cnt} (h : ∀ k, a.get k = b.get k) : a = b := by
  have key : ∀ (m n : PMap), Ok m → Ok n → (∀ k, Arb.get m k = Arb.get n k) → m = n := by
    intro m
    induction m with
    | nil =>
      intro n _ hn h
      rcases n with _ | ⟨b, n⟩
      · rfl
      · have := h b.1
        rw [Arb.get_nil, Arb.get_mem hn.srt List.mem_cons_self] at this
        exact absurd this.symm (hn.nz b List.mem_cons_self)
    | cons a m ih =>
      intro n hm hn h
      rcases n with _ | ⟨b, n⟩
      · have := h a.1
        rw [Arb.get_nil, Arb.get_mem hm.srt List.mem_cons_self] at this
        exact absurd this (hm.nz a List.mem_cons_self)
      · obtain ⟨m1, m2⟩ := List.pairwise_cons.1 hm.srt
        obtain ⟨n1, n2⟩ := List.pairwise_cons.1 hn.srt
        have ha := h a.1
        have hb := h b.1
        rw [Arb.get_mem hm.srt List.mem_cons_self] at ha
        rw [Arb.get_mem hn.srt List.mem_cons_self] at hb
        have za := hm.nz a List.mem_cons_self
        have zb := hn.nz b List.mem_cons_self
        have hab : a.1 = b.1 := by
          rcases lt_trichotomy a.1 b.1 with c | c | c
          · exfalso; apply za; rw [ha]; refine Arb.get_not_mem (fun d hd => ?_)
            rcases List.mem_cons.1 hd with rfl | hd
            · omega
            · have := n1 d hd; omega
          · exact c
          · exfalso; apply zb; rw [← hb]; refine Arb.get_not_mem (fun d hd => ?_)
            rcases List.mem_cons.1 hd with rfl | hd
            · omega
            · have := m1 d hd; omega
        have e : a = b := by
          rw [hab, Arb.get_mem hn.srt List.mem_cons_self] at ha
          exact Prod.ext hab ha
        rw [e]
        congr 1
        refine ih n ⟨m2, fun d hd => hm.nz d (List.mem_cons_of_mem _ hd)⟩ ⟨n2, fun d hd => hn.nz d (List.mem_cons_of_mem _ hd)⟩ (fun k => ?_)
        have := h k
        rw [Arb.get_cons, Arb.get_cons, e] at this
        omega
  rcases a with ⟨m, hm⟩
  rcases b with ⟨n, hn⟩
  have := key m n hm hn h
  subst this
  rfl

/-- `CountMerge()`. -/
instance : Zero Cnt := ⟨⟨[], ⟨List.Pairwise.nil, by simp⟩⟩⟩
/-- `operator+`, PM 50-53 and 58-60. -/
instance : Add Cnt := ⟨fun a b => ⟨mergeMaps false a.counts b.counts, mergeMaps_ok a.ok b.ok _⟩⟩
/-- `operator-`, PM 54-57 and 61-63. -/
instance : Sub Cnt := ⟨fun a b => ⟨mergeMaps true a.counts b.counts, mergeMaps_ok a.ok b.ok _⟩⟩
/-- `invert`, PM 64-68. -/
instance : Neg Cnt := ⟨fun a => 0 - a⟩

theorem get_neg (m : PMap) (k : Int) : Arb.get (m.map (fun b => (b.1, b.2 * -1))) k = -Arb.get m k := by
  induction m with
  | nil => rfl
  | cons a m ih => rw [List.map_cons, Arb.get_cons, Arb.get_cons, ih]; dsimp only; split_ifs <;> ring

theorem Cnt.get_zero (k : Int) : (0 : Cnt).get k = 0 := rfl
theorem Cnt.get_add (a b : Cnt) (k : Int) : (a + b).get k = a.get k + b.get k := by
  show Arb.get (mergeMaps false a.counts b.counts) k = _
  rw [mergeMaps_eq, Arb.mergeMaps_get]
  simp [Cnt.get]
theorem Cnt.get_sub (a b : Cnt) (k : Int) : (a - b).get k = a.get k - b.get k := by
  show Arb.get (mergeMaps true a.counts b.counts) k = _
  rw [mergeMaps_eq, Arb.mergeMaps_get]
  simp only [if_true]
  rw [get_neg]; rfl
theorem Cnt.get_neg (a : Cnt) (k : Int) : (-a).get k = -a.get k := by
  show (0 - a : Cnt).get k = _
  rw [Cnt.get_sub, Cnt.get_zero]; ring

instance : AddCommGroup Cnt where
  add_assoc a b c := Cnt.ext_get (fun k => by simp only [Cnt.get_add]; ring)
  zero_add a := Cnt.ext_get (fun k => by rw [Cnt.get_add, Cnt.get_zero]; ring)
  add_zero a := Cnt.ext_get (fun k => by rw [Cnt.get_add, Cnt.get_zero]; ring)
  nsmul := nsmulRec
  zsmul := zsmulRec
  sub_eq_add_neg a b := Cnt.ext_get (fun k => by rw [Cnt.get_sub, Cnt.get_add, Cnt.get_neg]; ring)
  neg_add_cancel a := Cnt.ext_get (fun k => by rw [Cnt.get_add, Cnt.get_neg, Cnt.get_zero]; ring)
  add_comm a b := Cnt.ext_get (fun k => by simp only [Cnt.get_add]; ring)

/-- `operator[]` of an empty vector with a count added, PM 33-40 with 145-149. -/
def one (k c : Int) : Cnt := if h : c = 0 then 0 else ⟨[(k, c)], ⟨by simp, by simp [h]⟩⟩

/-- The properties in the vector, PM 81-88. -/
def Cnt.keys (c : Cnt) : List Int := c.counts.map Prod.fst

/-! ### The data of both classes -/

/-- `MergeSetData` and `TouchSetData`, PM 101-103 and PT 153-155. -/
abbrev TSD := List (Vert Cnt)

/-- `populateMergeSetData` and `populateTouchSetData`, PM 139-151 and PT 219-231: what they add. -/
def populate (D : List VC) (k : Int) : TSD :=
  D.map (fun v => ((v.1.1 * 2, v.1.2 * 2), ⟨one k v.2.n, one k v.2.z, one k v.2.p, one k v.2.v⟩))

/-- `insert`, PS45 1798-1801 and 1856-1860. `clean` may throw or be undefined. -/
def insert (umin umax : Int) (t : TSD) (s : S45) (k : Int) : Option TSD :=
  match s.clean umin umax with
  | .ok u => some (t ++ populate u.data k)
  | _ => none

/-- Sets inserted one after the other, each under a property. -/
def insertAll (umin umax : Int) : List (S45 × Int) → TSD → Option TSD
  | [], t => some t
  | a :: r, t => match insert umin umax t a.1 a.2 with | some t => insertAll umin umax r t | none => none

/-- The nodes of `connectivity_extraction_45` are numbered in the order of insertion, PS45 1856-1867. -/
def nodes (S : List S45) : List (S45 × Int) := S.zipIdx.map (fun a => (a.1, (a.2 : Int)))

/-- `lessVertex45Compact`, PM 105-109 and PT 157-161: by abscissa, then by ordinate. -/
def lessPt (v w : Vert Cnt) : Bool := v.1.1 < w.1.1 || (v.1.1 == w.1.1 && v.1.2 < w.1.2)

/-- PM 118-126 and PT 195-203: the counts at one point are added up (from the other side). -/
def gather : TSD → TSD
  | [] => []
  | v :: r =>
    match gather r with
    | [] => [v]
    | w :: s => if w.1 = v.1 then (v.1, v.2.add w.2) :: s else v :: w :: s

/-- PM 128-136 and PT 207-215: a call of the scanline for every abscissa. The number bounds the rounds. -/
def columns {O : Type} (F : Fn Cnt O) : Nat → St Cnt → TSD → List O → Except Err (List O)
  | _, _, [], out => .ok out
  | 0, _, _ :: _, _ => .error .diverge
  | n + 1, st, v :: r, out =>
    match scan F st ((v :: r).takeWhile (fun w => decide (w.1.1 = v.1.1))) out with
    | .error e => .error e
    | .ok (st, out) => columns F n st ((v :: r).dropWhile (fun w => decide (w.1.1 = v.1.1))) out

/-- PM 114-136 and PT 191-215; `bmin` is the least value of the wide coordinate type. -/
def perform {O : Type} (F : Fn Cnt O) (bmin : Int) (t : TSD) : Except Err (List O) :=
  let s := gather (t.insertionSort (fun v w => lessPt w v = false))
  columns F s.length ⟨[], [], bmin⟩ s []

/-! ### `property_merge_45` -/

/-- `merge_45_output_functor`, PM 73-99: the entries of the result to which vertices are added. -/
def mergeFn : Fn Cnt (List Int × V45) :=
  ⟨fun c1 c2 pt rise low =>
    let et : Int := if low then -1 else 1
    if c1.keys = c2.keys then []
    else (if !c1.keys.isEmpty then [(c1.keys, ⟨pt, rise, -et⟩)] else []) ++ (if !c2.keys.isEmpty then [(c2.keys, ⟨pt, rise, et⟩)] else [])⟩

/-- The entry of `result_big` under a set of properties: `insert_clean`, PS45 111-115, leaves the flags `dirty_` and `unsorted_` false. -/
def entry (out : List (List Int × V45)) (K : List Int) : S45 :=
  let d := ((out.filter (fun a => a.1 == K)).map (fun a => ((a.2.pt, single a.2.rise a.2.count) : VC)))
  { S45.new with data := d, manh := d.all (fun v => !is45 v.2) }

/-- `performMerge`, PM 111-137. -/
def merge (bmin : Int) (t : TSD) : Except Err (List (List Int × V45)) := perform mergeFn bmin t

/-! ### `connectivity_extraction_45` -/

/-- A call of the functor, PT 132-133: the counts and the point. -/
abbrev Call := (Cnt × Cnt) × P

/-- A functor that records its calls; the scanline does not see the state of the functor. -/
def rawFn : Fn Cnt Call := ⟨fun c1 c2 pt _ _ => [((c1, c2), pt)]⟩

/-- `y_prop_map[y]` with the properties inserted, PT 138-150. -/
def addY : List (Int × List Int) → Int → List Int → List (Int × List Int)
  | [], y, ks => [(y, ks.foldl ArbMerge.setInsert [])]
  | a :: r, y, ks =>
    if a.1 < y then a :: addY r y ks
    else if y < a.1 then (y, ks.foldl ArbMerge.setInsert []) :: a :: r
    else (a.1, ks.foldl ArbMerge.setInsert a.2) :: r

/-- The state of the functor, PT 107-108 and 204-205: the abscissa, `y_prop_map` and the graph; `(i, j)` says that `j` is in the entry of `i`. -/
structure CS where
  x : Int
  m : List (Int × List Int)
  g : List (Int × Int)

/-- `process_previous_x`, PT 110-128. -/
def CS.process (s : CS) : CS := { s with m := [], g := s.g ++ s.m.flatMap (fun a => ArbMerge.pairs a.2) }

/-- The properties with positive counts, PT 141 and 147. -/
def posKeys (c : Cnt) : List Int := (c.counts.filter (fun a => decide (a.2 > 0))).map Prod.fst

/-- `touch_45_output_functor`, PT 130-152. -/
def CS.call (s : CS) (c : Call) : CS :=
  let s := if c.2.1 ≠ s.x then s.process else s
  { s with x := c.2.1, m := addY s.m c.2.2 (posKeys c.1.1 ++ posKeys c.1.2) }

/-- `performTouch`, PT 189-217; `bmin` and `bmax` are the bounds of the wide coordinate type. -/
def touch (bmin bmax : Int) (t : TSD) : Except Err (List (Int × Int)) :=
  match perform rawFn bmin t with
  | .error e => .error e
  | .ok calls => .ok ((calls.foldl CS.call ⟨bmax, [], []⟩).process).g

end Verif.Merge45
