import Verif.Model.PropertyMerge
import Verif.Spec.PropertyMerge
import Verif.Proofs.Set90
/-! # Helper lemmas for the property merge -/
namespace Verif.PropertyMerge
open Verif.BooleanOp Verif.Set90 Verif.Isotropy Verif.Spec

variable {α : Type} [LinearOrder α]

/-! ### Property maps -/

/-- The count of a property in a map. -/
def cnt (m : PMap α) (p : α) : Int := (m.map (fun a => if a.1 = p then a.2 else 0)).sum

/-- A map sorted by property, without repetition. -/
def Srt (m : PMap α) : Prop := m.Pairwise (fun a b => a.1 < b.1)

theorem cnt_nil (p : α) : cnt ([] : PMap α) p = 0 := rfl
theorem cnt_cons (a : α × Int) (m : PMap α) (p : α) : cnt (a :: m) p = (if a.1 = p then a.2 else 0) + cnt m p := by simp [cnt]
theorem cnt_append (m m' : PMap α) (p : α) : cnt (m ++ m') p = cnt m p + cnt m' p := by simp [cnt]

theorem cnt_mergeProperty (m : PMap α) (r : α × Int) (p : α) : cnt (mergeProperty m r) p = cnt m p + if r.1 = p then r.2 else 0 := by
  induction m with
  | nil => simp [mergeProperty, cnt]
  | cons a m ih =>
    unfold mergeProperty
    split
    · rw [cnt_cons, ih, cnt_cons]; ring
    · split
      · rw [cnt_cons, cnt_cons]; ring
      · rename_i h1 h2
        have : a.1 = r.1 := by simpa using h2
        split
        · rename_i h3
          rw [cnt_cons, this]
          split_ifs <;> omega
        · rw [cnt_cons, cnt_cons, this]
          dsimp only
          split_ifs <;> ring

theorem mem_mergeProperty {m : PMap α} {r a : α × Int} (h : a ∈ mergeProperty m r) : a.1 = r.1 ∨ a ∈ m := by
  induction m with
  | nil => left; simp [mergeProperty] at h; rw [h]
  | cons b m ih =>
    unfold mergeProperty at h
    split at h
    · rcases List.mem_cons.mp h with rfl | h
      · right; simp
      · rcases ih h with h | h
        · left; exact h
        · right; simp [h]
    · split at h
      · rcases List.mem_cons.mp h with rfl | h
        · left; rfl
        · right; exact h
      · rename_i h2
        split at h
        · right; simp [h]
        · rcases List.mem_cons.mp h with rfl | h
          · left; simpa using h2
          · right; simp [h]

theorem srt_mergeProperty {m : PMap α} (h : Srt m) (r : α × Int) : Srt (mergeProperty m r) := by
  unfold Srt at *
  induction m with
  | nil => simp [mergeProperty]
  | cons a m ih =>
    rw [List.pairwise_cons] at h
    unfold mergeProperty
    split
    · rename_i h1
      refine List.pairwise_cons.mpr ⟨fun b hb => ?_, ih h.2⟩
      rcases mem_mergeProperty hb with e | e
      · rw [e]; exact h1
      · exact h.1 b e
    · split
      · rename_i h1 h2
        have hlt : r.1 < a.1 := lt_of_le_of_ne (not_lt.mp h1) (fun e => h2 e.symm)
        refine List.pairwise_cons.mpr ⟨fun b hb => ?_, List.pairwise_cons.mpr h⟩
        rcases List.mem_cons.mp hb with rfl | hb
        · exact hlt
        · exact lt_trans hlt (h.1 b hb)
      · split
        · exact h.2
        · exact List.pairwise_cons.mpr ⟨h.1, h.2⟩

theorem pushTmp_cases (tmp : PMap α) (a : α × Int) :
    (∃ t b, tmp = t ++ [b] ∧ a.1 = b.1 ∧ pushTmp tmp a = t ++ [(b.1, b.2 + a.2)]) ∨
    (pushTmp tmp a = tmp ++ [a] ∧ ∀ t b, tmp = t ++ [b] → a.1 ≠ b.1) := by
  rcases List.eq_nil_or_concat' tmp with rfl | ⟨t, b, rfl⟩
  · right; exact ⟨rfl, fun t b h => by simp at h⟩
  · by_cases h : a.1 = b.1
    · left; exact ⟨t, b, rfl, h, by simp [pushTmp, h]⟩
    · right
      refine ⟨by simp [pushTmp, h], fun t' b' e => ?_⟩
      have := List.append_inj' e rfl
      simp only [List.cons.injEq, and_true] at this
      rw [← this.2]; exact h

theorem cnt_pushTmp (tmp : PMap α) (a : α × Int) (p : α) : cnt (pushTmp tmp a) p = cnt tmp p + if a.1 = p then a.2 else 0 := by
  rcases pushTmp_cases tmp a with ⟨t, b, rfl, h, e⟩ | ⟨e, -⟩
  · rw [e, cnt_append, cnt_append, cnt_cons, cnt_cons, cnt_nil, h]
    dsimp only
    split_ifs <;> ring
  · rw [e, cnt_append, cnt_cons, cnt_nil]; ring

theorem cnt_mergeLoop (tmp l r : PMap α) (p : α) : cnt (mergeLoop tmp l r) p = cnt tmp p + cnt l p + cnt r p := by
  fun_induction mergeLoop tmp l r with
  | case1 tmp => simp [cnt]
  | case2 tmp a l ih => rw [ih, cnt_pushTmp, cnt_cons]; ring
  | case3 tmp b r ih => rw [ih, cnt_pushTmp, cnt_cons]; ring
  | case4 tmp a l b r h ih => rw [ih, cnt_pushTmp, cnt_cons a]; ring
  | case5 tmp a l b r h ih => rw [ih, cnt_pushTmp, cnt_cons b]; ring

theorem cnt_filter (m : PMap α) (p : α) : cnt (m.filter (fun a => a.2 ≠ 0)) p = cnt m p := by
  induction m with
  | nil => rfl
  | cons a m ih =>
    by_cases h : a.2 = 0
    · rw [List.filter_cons_of_neg (by simpa using h), ih, cnt_cons, h]; simp
    · rw [List.filter_cons_of_pos (by simpa using h), cnt_cons, ih, cnt_cons]

theorem cnt_mergeCount (l r : PMap α) (p : α) : cnt (mergeCount l r) p = cnt l p + cnt r p := by
  unfold mergeCount
  rw [cnt_filter, cnt_mergeLoop, cnt_nil]; ring

/-- Everything in `tmp` is at most everything in `l`. -/
def Below (tmp l : PMap α) : Prop := ∀ a ∈ tmp, ∀ b ∈ l, a.1 ≤ b.1

theorem srt_pushTmp {tmp : PMap α} (h : Srt tmp) {a : α × Int} (ha : ∀ b ∈ tmp, b.1 ≤ a.1) : Srt (pushTmp tmp a) := by
  unfold Srt at *
  rcases pushTmp_cases tmp a with ⟨t, b, rfl, h', e⟩ | ⟨e, hne⟩
  · rw [e]
    rw [List.pairwise_append] at h ⊢
    refine ⟨h.1, by simp, fun x hx y hy => ?_⟩
    simp only [List.mem_cons, List.not_mem_nil, or_false] at hy
    subst hy
    exact h.2.2 x hx b (by simp)
  · rw [e, List.pairwise_append]
    refine ⟨h, by simp, fun x hx y hy => ?_⟩
    simp only [List.mem_cons, List.not_mem_nil, or_false] at hy
    subst hy
    rcases List.eq_nil_or_concat' tmp with rfl | ⟨t, b, rfl⟩
    · simp at hx
    · have hb : b.1 < y.1 := lt_of_le_of_ne (ha b (by simp)) (fun g => hne t b rfl g.symm)
      rcases List.mem_append.mp hx with hx | hx
      · rw [List.pairwise_append] at h
        exact lt_trans (h.2.2 x hx b (by simp)) hb
      · simp only [List.mem_cons, List.not_mem_nil, or_false] at hx
        rw [hx]; exact hb

theorem mem_pushTmp {tmp : PMap α} {a c : α × Int} (h : c ∈ pushTmp tmp a) : c.1 = a.1 ∨ c ∈ tmp := by
  rcases pushTmp_cases tmp a with ⟨t, b, rfl, h', e⟩ | ⟨e, -⟩
  · rw [e] at h
    rcases List.mem_append.mp h with h | h
    · right; simp [h]
    · simp only [List.mem_cons, List.not_mem_nil, or_false] at h
      left; rw [h]; exact h'.symm
  · rw [e] at h
    rcases List.mem_append.mp h with h | h
    · right; exact h
    · simp only [List.mem_cons, List.not_mem_nil, or_false] at h
      left; rw [h]

theorem below_pushTmp {tmp l : PMap α} {a : α × Int} (h : Below tmp l) (ha : ∀ b ∈ l, a.1 ≤ b.1) : Below (pushTmp tmp a) l := by
  intro c hc b hb
  rcases mem_pushTmp hc with e | e
  · rw [e]; exact ha b hb
  · exact h c e b hb

theorem srt_mergeLoop (tmp l r : PMap α) (ht : Srt tmp) (hl : Srt l) (hr : Srt r) (h1 : Below tmp l) (h2 : Below tmp r) :
    Srt (mergeLoop tmp l r) := by
  fun_induction mergeLoop tmp l r with
  | case1 tmp => exact ht
  | case2 tmp a l ih =>
    have hl' := List.pairwise_cons.mp hl
    exact ih (srt_pushTmp ht (fun b hb => h1 b hb a (by simp))) hl'.2 hr
      (below_pushTmp (fun c hc b hb => h1 c hc b (by simp [hb])) (fun b hb => (hl'.1 b hb).le)) (by intro c _ b hb; simp at hb)
  | case3 tmp b r ih =>
    have hr' := List.pairwise_cons.mp hr
    exact ih (srt_pushTmp ht (fun c hc => h2 c hc b (by simp))) hl hr'.2 (by intro c _ b hb; simp at hb)
      (below_pushTmp (fun c hc b hb => h2 c hc b (by simp [hb])) (fun b hb => (hr'.1 b hb).le))
  | case4 tmp a l b r h ih =>
    have hl' := List.pairwise_cons.mp hl
    have hr' := List.pairwise_cons.mp hr
    refine ih (srt_pushTmp ht (fun c hc => h1 c hc a (by simp))) hl'.2 hr
      (below_pushTmp (fun c hc b hb => h1 c hc b (by simp [hb])) (fun b hb => (hl'.1 b hb).le))
      (below_pushTmp h2 (fun c hc => ?_))
    rcases List.mem_cons.mp hc with rfl | hc
    · exact h
    · exact le_trans h (hr'.1 c hc).le
  | case5 tmp a l b r h ih =>
    have hl' := List.pairwise_cons.mp hl
    have hr' := List.pairwise_cons.mp hr
    have hba : b.1 ≤ a.1 := (not_le.mp h).le
    refine ih (srt_pushTmp ht (fun c hc => h2 c hc b (by simp))) hl hr'.2
      (below_pushTmp h1 (fun c hc => ?_))
      (below_pushTmp (fun c hc b hb => h2 c hc b (by simp [hb])) (fun b hb => (hr'.1 b hb).le))
    rcases List.mem_cons.mp hc with rfl | hc
    · exact hba
    · exact le_trans hba (hl'.1 c hc).le

theorem srt_mergeCount {l r : PMap α} (hl : Srt l) (hr : Srt r) : Srt (mergeCount l r) := by
  unfold mergeCount
  exact (srt_mergeLoop [] l r List.Pairwise.nil hl hr (by intro a ha; simp at ha) (by intro a ha; simp at ha)).filter _

theorem cnt_zero {m : PMap α} {p : α} (h : ∀ a ∈ m, a.1 ≠ p) : cnt m p = 0 := by
  induction m with
  | nil => rfl
  | cons a m ih => rw [cnt_cons, if_neg (h a (by simp)), ih (fun b hb => h b (by simp [hb]))]; rfl

theorem cnt_mem {m : PMap α} (h : Srt m) {a : α × Int} (ha : a ∈ m) : cnt m a.1 = a.2 := by
  induction m with
  | nil => simp at ha
  | cons b m ih =>
    have h' := List.pairwise_cons.mp h
    rw [cnt_cons]
    rcases List.mem_cons.mp ha with rfl | ha
    · rw [if_pos rfl, cnt_zero (fun c hc => (h'.1 c hc).ne')]; ring
    · rw [if_neg (h'.1 a ha).ne, ih h'.2 ha]; ring

theorem isKey_setProperty {m : PMap α} (h : Srt m) : IsKey (setProperty m) (cnt m) := by
  constructor
  · unfold setProperty
    rw [List.pairwise_map]
    exact List.Pairwise.filter _ h
  · intro p
    unfold setProperty
    constructor
    · intro hp
      obtain ⟨a, ha, rfl⟩ := List.mem_map.mp hp
      have := List.mem_filter.mp ha
      rw [cnt_mem h this.1]
      simpa using this.2
    · intro hp
      by_contra g
      have : cnt m p ≤ 0 := by
        by_cases hm : ∃ a ∈ m, a.1 = p
        · obtain ⟨a, ha, rfl⟩ := hm
          rw [cnt_mem h ha]
          by_contra g2
          exact g (List.mem_map.mpr ⟨a, List.mem_filter.mpr ⟨ha, by simpa using g2⟩, rfl⟩)
        · push Not at hm
          rw [cnt_zero hm]
      omega

theorem isKey_unique {P Q : List α} {f : α → Int} (hP : IsKey P f) (hQ : IsKey Q f) : P = Q := by
  have hperm : P.Perm Q := by
    apply (List.perm_ext_iff_of_nodup (hP.1.imp (fun h => ne_of_lt h)) (hQ.1.imp (fun h => ne_of_lt h))).mpr
    intro a; rw [hP.2, hQ.2]
  exact hperm.eq_of_pairwise (fun a b _ _ h1 h2 => absurd (lt_trans h1 h2) (lt_irrefl _)) hP.1 hQ.1

open Classical in
/-- One if `P` is the key of `f`. -/
noncomputable def ind (P : List α) (f : α → Int) : Int := if IsKey P f then 1 else 0

theorem ind_setProperty {m : PMap α} (h : Srt m) (P : List α) : (if setProperty m = P then (1 : Int) else 0) = ind P (cnt m) := by
  unfold ind
  by_cases e : setProperty m = P
  · rw [if_pos e, if_pos (by rw [← e]; exact isKey_setProperty h)]
  · rw [if_neg e, if_neg (fun g => e (isKey_unique (isKey_setProperty h) g))]

theorem ind_congr {P : List α} {f g : α → Int} (h : ∀ p, f p = g p) : ind P f = ind P g := by
  rw [show f = g from funext h]

theorem ind_zero {P : List α} (hP : P ≠ []) : ind P (fun _ => 0) = 0 := by
  unfold ind
  rw [if_neg]
  intro h
  cases P with
  | nil => exact hP rfl
  | cons a P => exact absurd ((h.2 a).mp (by simp)) (lt_irrefl _)


/-! ### The scanline -/

/-- The map of the last element with key at most `z`, or `d`. -/
def look (d : PMap α) : List (Int × PMap α) → Int → PMap α
  | [], _ => d
  | e :: r, z => if e.1 ≤ z then look e.2 r z else d

/-- Keys increase, maps are sorted. -/
def WF (S : List (Int × PMap α)) : Prop := S.Pairwise (fun a b => a.1 < b.1) ∧ ∀ e ∈ S, Srt e.2

/-- The last element is empty. -/
def LastE (S : List (Int × PMap α)) : Prop := ∀ e, S.getLast? = some e → e.2 = []

theorem look_below {S : List (Int × PMap α)} {z : Int} {d : PMap α} (h : ∀ e ∈ S, z < e.1) : look d S z = d := by
  cases S with
  | nil => rfl
  | cons e S => have := h e (by simp); unfold look; rw [if_neg (by omega)]

theorem look_append {A B : List (Int × PMap α)} (h : (A ++ B).Pairwise (fun a b => a.1 < b.1)) (d : PMap α) (z : Int) :
    look d (A ++ B) z = look (look d A z) B z := by
  induction A generalizing d with
  | nil => rfl
  | cons a A ih =>
    rw [List.cons_append, List.pairwise_cons] at h
    simp only [List.cons_append, look]
    by_cases g : a.1 ≤ z
    · rw [if_pos g, if_pos g]; exact ih h.2 _
    · rw [if_neg g, if_neg g]
      rw [look_below]
      intro e he
      have := h.1 e (by simp [he]); omega

theorem look_split {A : List (Int × PMap α)} {e : Int × PMap α} {r : List (Int × PMap α)}
    (h : (A ++ e :: r).Pairwise (fun a b => a.1 < b.1)) (z : Int) :
    look [] (A ++ e :: r) z = if z < e.1 then look [] A z else look e.2 r z := by
  rw [look_append h]
  by_cases g : z < e.1
  · rw [if_pos g]; simp only [look]; rw [if_neg (by omega)]
  · rw [if_neg g]; simp only [look]; rw [if_pos (by omega)]

theorem srt_look {S : List (Int × PMap α)} (h : ∀ e ∈ S, Srt e.2) {d : PMap α} (hd : Srt d) (z : Int) : Srt (look d S z) := by
  induction S generalizing d with
  | nil => exact hd
  | cons e S ih =>
    unfold look
    split
    · exact ih (fun x hx => h x (by simp [hx])) (h e (by simp))
    · exact hd

theorem look_last {A : List (Int × PMap α)} {b : Int × PMap α} (h : (A ++ [b]).Pairwise (fun a b => a.1 < b.1)) {z : Int}
    (hz : b.1 ≤ z) : look [] (A ++ [b]) z = b.2 := by
  rw [look_split h, if_neg (by omega)]; rfl

theorem addElem_cases (below : List (Int × PMap α)) (k : Int) (m : PMap α) :
    addElem below k m = below ++ [(k, m)] ∨ (addElem below k m = below ∧ ((below = [] ∧ m = []) ∨ ∃ A b, below = A ++ [b] ∧ b.2 = m)) := by
  rcases List.eq_nil_or_concat' below with rfl | ⟨A, b, rfl⟩
  · by_cases h : m = []
    · right; exact ⟨by simp [addElem, h], Or.inl ⟨rfl, h⟩⟩
    · left; simp [addElem, h]
  · by_cases h : b.2 = m
    · right; exact ⟨by simp [addElem, h], Or.inr ⟨A, b, rfl, h⟩⟩
    · left; simp [addElem, h]

theorem addElem_mem {below : List (Int × PMap α)} {k : Int} {m : PMap α} {e : Int × PMap α} (h : e ∈ addElem below k m) :
    e ∈ below ∨ e = (k, m) := by
  rcases addElem_cases below k m with g | ⟨g, -⟩ <;> rw [g] at h
  · simpa using h
  · left; exact h

theorem addElem_look {below : List (Int × PMap α)} {k : Int} {m : PMap α} (h : (below ++ [(k, m)]).Pairwise (fun a b => a.1 < b.1))
    (z : Int) : look [] (addElem below k m) z = look [] (below ++ [(k, m)]) z := by
  rcases addElem_cases below k m with g | ⟨g, hc⟩ <;> rw [g]
  rcases hc with ⟨rfl, rfl⟩ | ⟨A, b, rfl, rfl⟩
  · simp [look]
  · rw [look_split h]
    split
    · rfl
    · rename_i hz
      have hb : b.1 < k := by
        rw [List.pairwise_append] at h
        exact h.2.2 b (by simp) (k, b.2) (by simp)
      rw [look_last (List.Pairwise.sublist (List.sublist_append_left _ _) h) (by dsimp only at hz; omega)]
      rfl

/-- Replacing the element before a tail by `addElem` keeps everything well-formed. -/
theorem wf_addElem {below : List (Int × PMap α)} {k : Int} {m : PMap α} {T : List (Int × PMap α)}
    (h : WF (below ++ (k, m) :: T)) : WF (addElem below k m ++ T) := by
  rcases addElem_cases below k m with g | ⟨g, -⟩ <;> rw [g]
  · simpa using h
  · refine ⟨h.1.sublist ?_, fun e he => h.2 e ?_⟩
    · exact List.Sublist.append_left (List.sublist_cons_self _ _) _
    · rcases List.mem_append.mp he with he | he <;> simp [he]

theorem look_addElem_append {below : List (Int × PMap α)} {k : Int} {m : PMap α} {T : List (Int × PMap α)}
    (h : WF (below ++ (k, m) :: T)) (z : Int) : look [] (addElem below k m ++ T) z = look [] (below ++ (k, m) :: T) z := by
  have h1 : ((below ++ [(k, m)]) ++ T).Pairwise (fun a b => a.1 < b.1) := by simpa using h.1
  rw [look_append (wf_addElem h).1, addElem_look (List.Pairwise.sublist (List.sublist_append_left _ _) h1), ← look_append h1]
  simp

/-! ### The output -/

/-- What an edge adds for key `P` at height `z`. -/
def econ (P : List α) (z : Int) (e : Edge α) : Int :=
  if e.lo ≤ z ∧ z < e.hi then (if e.right = P then 1 else 0) - (if e.left = P then 1 else 0) else 0

def osum (P : List α) (z : Int) (out : List (Edge α)) : Int := (out.map (econ P z)).sum

theorem osum_append (P : List α) (z : Int) (a b : List (Edge α)) : osum P z (a ++ b) = osum P z a + osum P z b := by simp [osum]

def OutOk (out : List (Edge α)) : Prop := ∀ e ∈ out, e.lo < e.hi

theorem pushEdge_spec {out : List (Edge α)} (h : OutOk out) {e : Edge α} (he : e.lo < e.hi) (P : List α) (z : Int) :
    OutOk (pushEdge out e) ∧ osum P z (pushEdge out e) = osum P z out + econ P z e := by
  unfold pushEdge
  split
  · rename_i g
    refine ⟨h, ?_⟩
    have : econ P z e = 0 := by unfold econ; rw [g]; split_ifs <;> omega
    omega
  · rcases List.eq_nil_or_concat' out with rfl | ⟨A, s, rfl⟩
    · simp only [List.getLast?_nil]
      refine ⟨?_, by simp [osum]⟩
      intro x hx; simp only [List.mem_cons, List.not_mem_nil, or_false] at hx; rw [hx]; exact he
    · have hs := h s (by simp)
      simp only [List.getLast?_concat, List.dropLast_concat]
      split
      · rename_i g
        constructor
        · intro x hx
          rcases List.mem_append.mp hx with hx | hx
          · exact h x (by simp [hx])
          · simp only [List.mem_cons, List.not_mem_nil, or_false] at hx; rw [hx]; dsimp only; omega
        · rw [osum_append, osum_append]
          have : econ P z ⟨s.lo, e.hi, s.left, s.right⟩ = econ P z s + econ P z e := by
            unfold econ
            dsimp only
            rw [g.2.1, g.2.2]
            have := g.1
            generalize (if e.right = P then (1 : Int) else 0) - (if e.left = P then (1 : Int) else 0) = v
            split_ifs <;> omega
          simp only [osum, List.map_cons, List.map_nil, List.sum_cons, List.sum_nil, this]; ring
      · constructor
        · intro x hx
          rcases List.mem_append.mp hx with hx | hx
          · exact h x hx
          · simp only [List.mem_cons, List.not_mem_nil, or_false] at hx; rw [hx]; exact he
        · rw [osum_append]; simp [osum]

theorem stepOut_spec {out : List (Edge α)} (h : OutOk out) {prev : Int × PMap α} {top : Int} (ht : prev.1 < top) {cfb : PMap α}
    (h1 : Srt prev.2) (h2 : Srt cfb) (P : List α) (z : Int) : OutOk (stepOut out prev top cfb) ∧
    osum P z (stepOut out prev top cfb) = osum P z out +
      if prev.1 ≤ z ∧ z < top then ind P (cnt (mergeCount prev.2 cfb)) - ind P (cnt prev.2) else 0 := by
  have := pushEdge_spec h (e := ⟨prev.1, top, setProperty prev.2, setProperty (mergeCount prev.2 cfb)⟩) ht P z
  refine ⟨this.1, ?_⟩
  unfold stepOut
  rw [this.2]
  unfold econ
  dsimp only
  rw [ind_setProperty h1, ind_setProperty (srt_mergeCount h1 h2)]

/-! ### The loop over the scanline -/

/-- What processing an interval `[lo, hi)` with the counts `cfb` does to a scanline and the output. -/
structure Effect (S S' : List (Int × PMap α)) (out out' : List (Edge α)) (lo hi : Int) (cfb : PMap α) : Prop where
  count : ∀ z p, cnt (look [] S' z) p = cnt (look [] S z) p + if lo ≤ z ∧ z < hi then cnt cfb p else 0
  edges : ∀ P z, P ≠ [] → osum P z out' = osum P z out + ind P (cnt (look [] S' z)) - ind P (cnt (look [] S z))
  ok : OutOk out → OutOk out'

theorem scan_spec (cfb : PMap α) (hc : Srt cfb) (high : Int) (rest : List (Int × PMap α)) : ∀ (below : List (Int × PMap α))
    (prev : Int × PMap α) (out : List (Edge α)), WF (below ++ prev :: rest) → LastE (below ++ prev :: rest) → OutOk out →
    prev.1 ≤ high → (rest ≠ [] ∨ prev.1 = high) →
    let p := scan cfb high below prev out rest
    p.prev.1 = high ∧ WF (p.below ++ p.prev :: p.rest) ∧ LastE (p.below ++ p.prev :: p.rest) ∧
      Effect (below ++ prev :: rest) (p.below ++ p.prev :: p.rest) out p.out prev.1 high cfb := by
  induction rest with
  | nil =>
    intro below prev out hwf hl ho hle hne
    have hph : prev.1 = high := by rcases hne with h | h; exact absurd rfl h; exact h
    refine ⟨hph, hwf, hl, ⟨fun z p => ?_, fun P z _ => ?_, id⟩⟩
    · rw [if_neg (by omega)]; simp [scan]
    · simp [scan]
  | cons e r ih =>
    intro below prev out hwf hl ho hle hne
    have hpe : prev.1 < e.1 := by
      have := hwf.1
      rw [List.pairwise_append] at this
      exact (List.pairwise_cons.mp this.2.1).1 e (by simp)
    have hsp : Srt prev.2 := hwf.2 prev (by simp)
    have hse : Srt e.2 := hwf.2 e (by simp)
    have hm : Srt (mergeCount prev.2 cfb) := srt_mergeCount hsp hc
    -- the list with the map of `prev` replaced
    have hwfm : WF (below ++ (prev.1, mergeCount prev.2 cfb) :: e :: r) := by
      refine ⟨?_, fun x hx => ?_⟩
      · have := hwf.1
        rw [List.pairwise_append, List.pairwise_cons] at this ⊢
        refine ⟨this.1, this.2.1, fun a ha b hb => ?_⟩
        rcases List.mem_cons.mp hb with rfl | hb
        · exact this.2.2 a ha prev (by simp)
        · exact this.2.2 a ha b (by simp [hb])
      · rcases List.mem_append.mp hx with hx | hx
        · exact hwf.2 x (by simp [hx])
        · rcases List.mem_cons.mp hx with rfl | hx
          · exact hm
          · exact hwf.2 x (by simp [hx])
    have hlookm : ∀ z, look [] (below ++ (prev.1, mergeCount prev.2 cfb) :: e :: r) z =
        if prev.1 ≤ z ∧ z < e.1 then mergeCount prev.2 cfb else look [] (below ++ prev :: e :: r) z := by
      intro z
      rw [look_split hwfm.1, look_split hwf.1]
      by_cases g1 : z < prev.1
      · rw [if_pos g1, if_pos g1, if_neg (by omega)]
      · rw [if_neg g1, if_neg g1]
        simp only [look]
        by_cases g2 : e.1 ≤ z
        · rw [if_pos g2, if_pos g2, if_neg (by omega)]
        · rw [if_neg g2, if_neg g2, if_pos (by omega)]
    have hlookp : ∀ z, prev.1 ≤ z → z < e.1 → look [] (below ++ prev :: e :: r) z = prev.2 := by
      intro z g1 g2
      rw [look_split hwf.1, if_neg (by omega)]
      unfold look
      rw [if_neg (by omega)]
    by_cases hc1 : e.1 ≤ high
    · -- the step over [prev, e)
      have hW1 : WF (stepBelow below prev cfb ++ e :: r) := wf_addElem hwfm
      have hL1 : LastE (stepBelow below prev cfb ++ e :: r) := by
        intro x hx
        rw [List.getLast?_append_of_ne_nil _ (by simp)] at hx
        exact hl x (by rw [show below ++ prev :: e :: r = (below ++ [prev]) ++ e :: r by simp, List.getLast?_append_of_ne_nil _ (by simp)]; exact hx)
      have hl1 : ∀ z, look [] (stepBelow below prev cfb ++ e :: r) z =
          if prev.1 ≤ z ∧ z < e.1 then mergeCount prev.2 cfb else look [] (below ++ prev :: e :: r) z := by
        intro z
        rw [← hlookm]
        exact look_addElem_append hwfm z
      have hO1 := fun P z => stepOut_spec ho hpe hsp hc P z
      have hE1 : Effect (below ++ prev :: e :: r) (stepBelow below prev cfb ++ e :: r) out (stepOut out prev e.1 cfb) prev.1 e.1 cfb := by
        refine ⟨fun z p => ?_, fun P z hP => ?_, fun _ => (hO1 [] 0).1⟩
        · rw [hl1]
          by_cases g : prev.1 ≤ z ∧ z < e.1
          · rw [if_pos g, if_pos g, hlookp z g.1 g.2, cnt_mergeCount]
          · rw [if_neg g, if_neg g]; ring
        · rw [(hO1 P z).2, hl1]
          by_cases g : prev.1 ≤ z ∧ z < e.1
          · rw [if_pos g, if_pos g, hlookp z g.1 g.2]; ring
          · rw [if_neg g, if_neg g]; ring
      have comb : ∀ {S3 : List (Int × PMap α)} {out3 : List (Edge α)},
          Effect (stepBelow below prev cfb ++ e :: r) S3 (stepOut out prev e.1 cfb) out3 e.1 high cfb →
          Effect (below ++ prev :: e :: r) S3 out out3 prev.1 high cfb := by
        intro S3 out3 hE
        refine ⟨fun z p => ?_, fun P z hP => ?_, fun h => hE.ok (hE1.ok h)⟩
        · rw [hE.count, hE1.count]
          split_ifs <;> omega
        · rw [hE.edges P z hP, hE1.edges P z hP]; ring
      by_cases hc2 : r = [] ∧ e.1 < high
      · obtain ⟨rfl, hlt⟩ := hc2
        simp only [scan, if_pos hc1, true_and, if_pos hlt]
        have he2 : e.2 = [] := hl e (by rw [show below ++ prev :: [e] = (below ++ [prev]) ++ [e] by simp, List.getLast?_concat])
        have hme : Srt (mergeCount e.2 cfb) := srt_mergeCount hse hc
        have hkey : ∀ x ∈ stepBelow below prev cfb, x.1 < e.1 := by
          have := hW1.1
          rw [List.pairwise_append] at this
          exact fun x hx => this.2.2 x hx e (by simp)
        have hwf2 : WF (stepBelow below prev cfb ++ (e.1, mergeCount e.2 cfb) :: [(high, ([] : PMap α))]) := by
          refine ⟨?_, fun x hx => ?_⟩
          · have := hW1.1
            rw [List.pairwise_append] at this ⊢
            refine ⟨this.1, by simpa using hlt, fun a ha b hb => ?_⟩
            have h1 := hkey a ha
            simp only [List.mem_cons, List.not_mem_nil, or_false] at hb
            rcases hb with rfl | rfl
            · exact h1
            · dsimp only; omega
          · rcases List.mem_append.mp hx with hx | hx
            · exact hW1.2 x (by simp [hx])
            · simp only [List.mem_cons, List.not_mem_nil, or_false] at hx
              rcases hx with rfl | rfl
              · exact hme
              · exact List.Pairwise.nil
        have hl2 : ∀ z, look [] (stepBelow (stepBelow below prev cfb) e cfb ++ [(high, ([] : PMap α))]) z =
            if e.1 ≤ z ∧ z < high then mergeCount e.2 cfb else look [] (stepBelow below prev cfb ++ [e]) z := by
          intro z
          have := look_addElem_append hwf2 z
          rw [show stepBelow (stepBelow below prev cfb) e cfb = addElem (stepBelow below prev cfb) e.1 (mergeCount e.2 cfb) from rfl,
            this, look_split hwf2.1, look_split hW1.1]
          dsimp only
          by_cases g1 : z < e.1
          · rw [if_pos g1, if_pos g1, if_neg (by omega)]
          · rw [if_neg g1, if_neg g1]
            simp only [look]
            by_cases g2 : high ≤ z
            · rw [if_pos g2, if_neg (by omega), he2]
            · rw [if_neg g2, if_pos (by omega)]
        refine ⟨wf_addElem hwf2, ?_, comb ⟨fun z p => ?_, fun P z hP => ?_, fun h => (stepOut_spec h hlt hse hc [] 0).1⟩⟩
        · intro x hx
          rw [List.getLast?_concat] at hx
          rw [← Option.some.inj hx]
        · rw [hl2]
          by_cases g : e.1 ≤ z ∧ z < high
          · rw [if_pos g, if_pos g, look_last hW1.1 g.1, cnt_mergeCount]
          · rw [if_neg g, if_neg g]; ring
        · rw [(stepOut_spec (hE1.ok ho) hlt hse hc P z).2, hl2]
          by_cases g : e.1 ≤ z ∧ z < high
          · rw [if_pos g, if_pos g, look_last hW1.1 g.1]; ring
          · rw [if_neg g, if_neg g]; ring
      · simp only [scan, if_pos hc1, if_neg hc2]
        have hne' : r ≠ [] ∨ e.1 = high := by
          by_cases g : r = []
          · right
            have : ¬ e.1 < high := fun k => hc2 ⟨g, k⟩
            omega
          · left; exact g
        obtain ⟨i1, i2, i3, i4⟩ := ih (stepBelow below prev cfb) e (stepOut out prev e.1 cfb) hW1 hL1 (hE1.ok ho) hc1 hne'
        exact ⟨i1, i2, i3, comb i4⟩
    · by_cases hc2 : prev.1 < high
      · simp only [scan, if_neg hc1, if_pos hc2]
        have hwf2 : WF (below ++ (prev.1, mergeCount prev.2 cfb) :: (high, prev.2) :: e :: r) := by
          refine ⟨?_, fun x hx => ?_⟩
          · have := hwfm.1
            rw [List.pairwise_append, List.pairwise_cons] at this ⊢
            have h3 := List.pairwise_cons.mp this.2.1.2
            refine ⟨this.1, ⟨fun a ha => ?_, List.pairwise_cons.mpr ⟨fun a ha => ?_, this.2.1.2⟩⟩, fun a ha b hb => ?_⟩
            · rcases List.mem_cons.mp ha with rfl | ha
              · exact hc2
              · exact this.2.1.1 a ha
            · rcases List.mem_cons.mp ha with rfl | ha
              · dsimp only; omega
              · have := h3.1 a ha; dsimp only; omega
            · have hap := this.2.2 a ha (prev.1, mergeCount prev.2 cfb) (by simp)
              dsimp only at hap
              rcases List.mem_cons.mp hb with rfl | hb
              · exact hap
              · rcases List.mem_cons.mp hb with rfl | hb
                · dsimp only; omega
                · exact this.2.2 a ha b (by simp only [List.mem_cons] at hb ⊢; right; exact hb)
          · rcases List.mem_append.mp hx with hx | hx
            · exact hwf.2 x (by simp [hx])
            · rcases List.mem_cons.mp hx with rfl | hx
              · exact hm
              · rcases List.mem_cons.mp hx with rfl | hx
                · exact hsp
                · exact hwf.2 x (by simp only [List.mem_append, List.mem_cons] at hx ⊢; right; right; exact hx)
        have hl2 : ∀ z, look [] (stepBelow below prev cfb ++ (high, prev.2) :: e :: r) z =
            if prev.1 ≤ z ∧ z < high then mergeCount prev.2 cfb else look [] (below ++ prev :: e :: r) z := by
          intro z
          unfold stepBelow
          rw [look_addElem_append hwf2, look_split hwf2.1, look_split hwf.1]
          dsimp only
          by_cases g1 : z < prev.1
          · rw [if_pos g1, if_pos g1, if_neg (by omega)]
          · rw [if_neg g1, if_neg g1]
            simp only [look]
            by_cases g2 : high ≤ z
            · rw [if_pos g2, if_neg (show ¬ (prev.1 ≤ z ∧ z < high) by omega)]
            · rw [if_neg g2, if_pos ⟨by omega, by omega⟩]
        have hlp : ∀ z, prev.1 ≤ z → z < high → look [] (below ++ prev :: e :: r) z = prev.2 := fun z g1 g2 => hlookp z g1 (by omega)
        refine ⟨trivial, wf_addElem hwf2, ?_, ⟨fun z p => ?_, fun P z hP => ?_, fun h => (stepOut_spec h hc2 hsp hc [] 0).1⟩⟩
        · intro x hx
          rw [show ∀ B : List (Int × PMap α), B ++ (high, prev.2) :: e :: r = (B ++ [(high, prev.2)]) ++ e :: r by simp,
            List.getLast?_append_of_ne_nil _ (by simp)] at hx
          exact hl x (by rw [show below ++ prev :: e :: r = (below ++ [prev]) ++ e :: r by simp, List.getLast?_append_of_ne_nil _ (by simp)]; exact hx)
        · rw [hl2]
          by_cases g : prev.1 ≤ z ∧ z < high
          · rw [if_pos g, if_pos g, hlp z g.1 g.2, cnt_mergeCount]
          · rw [if_neg g, if_neg g]; ring
        · rw [(stepOut_spec ho hc2 hsp hc P z).2, hl2]
          by_cases g : prev.1 ≤ z ∧ z < high
          · rw [if_pos g, if_pos g, hlp z g.1 g.2]; ring
          · rw [if_neg g, if_neg g]; ring
      · simp only [scan, if_neg hc1, if_neg hc2]
        refine ⟨by omega, hwf, hl, ⟨fun z p => ?_, fun P z _ => ?_, id⟩⟩
        · rw [if_neg (by omega)]; ring
        · ring


/-! ### One vertex -/

theorem lowerBound_spec (S : List (Int × PMap α)) (k : Int) : S = (lowerBound S k).1 ++ (lowerBound S k).2 ∧
    (∀ e ∈ (lowerBound S k).1, e.1 < k) ∧ ∀ e r, (lowerBound S k).2 = e :: r → k ≤ e.1 := by
  unfold lowerBound
  rw [List.span_eq_takeWhile_dropWhile]
  refine ⟨(List.takeWhile_append_dropWhile).symm, fun e he => ?_, fun e r h => ?_⟩
  · have := List.all_eq_true.mp (List.all_takeWhile (l := S) (p := fun e : Int × PMap α => decide (e.1 < k))) e he
    simpa using this
  have := List.head?_dropWhile_not (fun e : Int × PMap α => decide (e.1 < k)) S
  dsimp only at h
  rw [h] at this
  simpa using this

theorem lastE_addElem {below : List (Int × PMap α)} {k : Int} {m : PMap α} {T : List (Int × PMap α)}
    (h : LastE (below ++ (k, m) :: T)) : LastE (addElem below k m ++ T) := by
  rcases addElem_cases below k m with g | ⟨g, hc⟩ <;> rw [g]
  · simpa using h
  · cases T with
    | nil =>
      have hm : m = [] := h (k, m) (by simp)
      rw [List.append_nil]
      rcases hc with ⟨rfl, -⟩ | ⟨A, b, rfl, hb⟩
      · intro e he; simp at he
      · intro e he
        rw [List.getLast?_concat] at he
        rw [← Option.some.inj he, hb, hm]
    | cons t T =>
      intro e he
      rw [List.getLast?_append_of_ne_nil _ (by simp)] at he
      exact h e (by rw [show below ++ (k, m) :: t :: T = (below ++ [(k, m)]) ++ t :: T by simp,
        List.getLast?_append_of_ne_nil _ (by simp)]; exact he)

/-- The invariant of the members. -/
structure Inv (st : St α) : Prop where
  wf : WF st.scanline
  last : LastE st.scanline
  srt : Srt st.cfb
  out : OutOk st.out
  key : st.cfb ≠ [] → ∃ e ∈ st.scanline, e.1 = st.prevY

theorem processVertex_spec {st : St α} (h : Inv st) {y : Int} {cur : PMap α} (hcur : Srt cur) (hy : st.cfb ≠ [] → st.prevY < y) :
    ∃ st', processVertex st y cur = some st' ∧ Inv st' ∧ st'.prevY = y ∧ (∀ p, cnt st'.cfb p = cnt st.cfb p + cnt cur p) ∧
      Effect st.scanline st'.scanline st.out st'.out st.prevY y st.cfb := by
  unfold processVertex
  by_cases hc : st.cfb = []
  · rw [if_neg (by simpa using hc)]
    obtain ⟨l1, l2, l3⟩ := lowerBound_spec st.scanline y
    have heff : ∀ S', (∀ z, look [] S' z = look [] st.scanline z) → Effect st.scanline S' st.out st.out st.prevY y st.cfb := by
      intro S' hS
      refine ⟨fun z p => ?_, fun P z _ => ?_, id⟩
      · rw [hS, hc, cnt_nil]; simp
      · rw [hS]; ring
    rcases hlb : lowerBound st.scanline y with ⟨below, rest⟩
    rw [hlb] at l1 l2 l3
    dsimp only at l1 l2 l3
    have hwf := h.wf
    have hlast := h.last
    rw [l1] at hwf hlast
    cases rest with
    | nil =>
      rw [List.append_nil] at l1 hwf hlast
      have hwf' : WF (below ++ [(y, ([] : PMap α))]) := by
        refine ⟨?_, fun e he => ?_⟩
        · rw [List.pairwise_append]
          refine ⟨hwf.1, by simp, fun a ha b hb => ?_⟩
          simp only [List.mem_cons, List.not_mem_nil, or_false] at hb
          rw [hb]; exact l2 a ha
        · rcases List.mem_append.mp he with he | he
          · exact hwf.2 e he
          · simp only [List.mem_cons, List.not_mem_nil, or_false] at he
            rw [he]; exact List.Pairwise.nil
      refine ⟨_, rfl, ⟨hwf', ?_, hcur, h.out, fun _ => ⟨(y, []), by simp, rfl⟩⟩, rfl, fun p => by rw [hc, cnt_nil]; ring, heff _ ?_⟩
      · intro e he
        rw [List.getLast?_concat] at he
        rw [← Option.some.inj he]
      · intro z
        show look [] (below ++ [(y, [])]) z = _
        rw [look_split hwf'.1, l1]
        split
        · rfl
        · rename_i hz
          dsimp only at hz
          rcases List.eq_nil_or_concat' below with rfl | ⟨A, b, rfl⟩
          · rfl
          · have hb := l2 b (by simp)
            rw [look_last hwf.1 (by omega), hlast b (by simp)]; rfl
    | cons e r =>
      dsimp only
      have hye := l3 e r rfl
      by_cases hk : e.1 = y
      · rw [if_pos hk]
        refine ⟨_, rfl, ⟨hwf, hlast, hcur, h.out, fun _ => ⟨e, by simp, hk⟩⟩, rfl, fun p => by rw [hc, cnt_nil]; ring,
          heff _ (fun z => by rw [← l1])⟩
      · rw [if_neg hk]
        have hlt : y < e.1 := by omega
        set m : PMap α := (below.getLast?.map Prod.snd).getD [] with hm
        have hpw := List.pairwise_append.mp hwf.1
        have hmS : Srt m := by
          rcases List.eq_nil_or_concat' below with rfl | ⟨A, b, rfl⟩
          · rw [hm]; exact List.Pairwise.nil
          · rw [hm]; simp only [List.getLast?_concat, Option.map_some, Option.getD_some]
            exact hwf.2 b (by simp)
        have hwf' : WF (below ++ (y, m) :: e :: r) := by
          refine ⟨?_, fun x hx => ?_⟩
          · rw [List.pairwise_append, List.pairwise_cons]
            refine ⟨hpw.1, ⟨fun a ha => ?_, hpw.2.1⟩, fun a ha b hb => ?_⟩
            · rcases List.mem_cons.mp ha with rfl | ha
              · exact hlt
              · have := (List.pairwise_cons.mp hpw.2.1).1 a ha; dsimp only; omega
            · rcases List.mem_cons.mp hb with rfl | hb
              · exact l2 a ha
              · exact hpw.2.2 a ha b hb
          · rcases List.mem_append.mp hx with hx | hx
            · exact hwf.2 x (by simp [hx])
            · rcases List.mem_cons.mp hx with rfl | hx
              · exact hmS
              · exact hwf.2 x (by simp only [List.mem_append, List.mem_cons] at hx ⊢; right; exact hx)
        refine ⟨_, rfl, ⟨hwf', ?_, hcur, h.out, fun _ => ⟨(y, m), by simp, rfl⟩⟩, rfl, fun p => by rw [hc, cnt_nil]; ring, heff _ ?_⟩
        · intro x hx
          rw [show below ++ (y, m) :: e :: r = (below ++ [(y, m)]) ++ e :: r by simp, List.getLast?_append_of_ne_nil _ (by simp)] at hx
          exact hlast x (by rw [List.getLast?_append_of_ne_nil _ (by simp)]; exact hx)
        · intro z
          show look [] (below ++ (y, m) :: e :: r) z = _
          rw [look_split hwf'.1, l1, look_append hwf.1]
          dsimp only
          by_cases hz : z < y
          · rw [if_pos hz, look_below (S := e :: r)]
            intro x hx
            rcases List.mem_cons.mp hx with rfl | hx
            · omega
            · have := (List.pairwise_cons.mp hpw.2.1).1 x hx; omega
          · rw [if_neg hz]
            congr 1
            rcases List.eq_nil_or_concat' below with rfl | ⟨A, b, rfl⟩
            · rw [hm]; rfl
            · have hb := l2 b (by simp)
              rw [hm, look_last hpw.1 (by omega)]
              simp
  · rw [if_pos hc]
    have hlt := hy hc
    obtain ⟨e0, he0, hk0⟩ := h.key hc
    obtain ⟨l1, l2, l3⟩ := lowerBound_spec st.scanline st.prevY
    rcases hlb : lowerBound st.scanline st.prevY with ⟨below, rest⟩
    rw [hlb] at l1 l2 l3
    dsimp only at l1 l2 l3
    have hwf := h.wf
    have hlast := h.last
    rw [l1] at hwf hlast he0
    have he0' : e0 ∈ rest := by
      rcases List.mem_append.mp he0 with g | g
      · have := l2 e0 g; omega
      · exact g
    cases rest with
    | nil => simp at he0'
    | cons prev rest =>
      have hpk : prev.1 = st.prevY := by
        have h1 := l3 prev rest rfl
        rcases List.mem_cons.mp he0' with rfl | g
        · exact hk0
        · have := (List.pairwise_cons.mp (List.pairwise_append.mp hwf.1).2.1).1 e0 g; omega
      dsimp only
      rw [if_neg (by simpa using hpk)]
      by_cases hr : rest = []
      · subst hr
        have hp2 : prev.2 = [] := hlast prev (by simp)
        have hsc : scan st.cfb y below prev st.out [] = ⟨below, prev, [], st.out⟩ := rfl
        rw [hsc]
        dsimp only
        rw [if_pos ⟨rfl, by omega⟩]
        have hm : Srt (mergeCount prev.2 st.cfb) := srt_mergeCount (hwf.2 prev (by simp)) h.srt
        have hwf' : WF (below ++ (prev.1, mergeCount prev.2 st.cfb) :: [(y, ([] : PMap α))]) := by
          have hpw := List.pairwise_append.mp hwf.1
          refine ⟨?_, fun x hx => ?_⟩
          · rw [List.pairwise_append]
            refine ⟨hpw.1, by simp; omega, fun a ha b hb => ?_⟩
            have := hpw.2.2 a ha prev (by simp)
            simp only [List.mem_cons, List.not_mem_nil, or_false] at hb
            rcases hb with rfl | rfl
            · exact this
            · dsimp only; omega
          · rcases List.mem_append.mp hx with hx | hx
            · exact hwf.2 x (by simp [hx])
            · simp only [List.mem_cons, List.not_mem_nil, or_false] at hx
              rcases hx with rfl | rfl
              · exact hm
              · exact List.Pairwise.nil
        have hl' : ∀ z, look [] (below ++ [(prev.1, mergeCount prev.2 st.cfb), (y, [])]) z =
            if st.prevY ≤ z ∧ z < y then mergeCount prev.2 st.cfb else look [] st.scanline z := by
          intro z
          rw [look_split hwf'.1, l1, look_split hwf.1]
          dsimp only
          by_cases g1 : z < prev.1
          · rw [if_pos g1, if_pos g1, if_neg (by omega)]
          · rw [if_neg g1, if_neg g1]
            simp only [look]
            by_cases g2 : y ≤ z
            · rw [if_pos g2, if_neg (by omega), hp2]
            · rw [if_neg g2, if_pos (by omega)]
        have hlp : ∀ z, st.prevY ≤ z → look [] st.scanline z = [] := by
          intro z hz
          rw [l1, look_last hwf.1 (by omega), hp2]
        refine ⟨_, rfl, ⟨hwf', ?_, srt_mergeCount h.srt hcur, ?_, fun _ => ⟨(y, []), by simp, rfl⟩⟩, rfl, fun p => cnt_mergeCount _ _ _,
          ⟨fun z p => ?_, fun P z hP => ?_, fun ho => ?_⟩⟩
        · intro x hx
          rw [show below ++ [(prev.1, mergeCount prev.2 st.cfb), (y, [])] = (below ++ [(prev.1, mergeCount prev.2 st.cfb)]) ++ [(y, [])] by simp,
            List.getLast?_concat] at hx
          rw [← Option.some.inj hx]
        · intro x hx
          rcases List.mem_append.mp hx with hx | hx
          · exact h.out x hx
          · simp only [List.mem_cons, List.not_mem_nil, or_false] at hx; rw [hx]; dsimp only; omega
        · rw [hl']
          by_cases g : st.prevY ≤ z ∧ z < y
          · rw [if_pos g, if_pos g, hlp z g.1, cnt_mergeCount, hp2]
          · rw [if_neg g, if_neg g]; ring
        · rw [osum_append, hl']
          have : osum P z [⟨prev.1, y, [], setProperty st.cfb⟩] = if st.prevY ≤ z ∧ z < y then ind P (cnt st.cfb) else 0 := by
            simp only [osum, List.map_cons, List.map_nil, List.sum_cons, List.sum_nil, econ]
            rw [ind_setProperty h.srt, if_neg (fun g : ([] : List α) = P => hP g.symm), hpk]
            split_ifs <;> ring
          rw [this]
          by_cases g : st.prevY ≤ z ∧ z < y
          · rw [if_pos g, if_pos g, hlp z g.1]
            have e1 : ind P (cnt (mergeCount prev.2 st.cfb)) = ind P (cnt st.cfb) := ind_congr (fun p => by
              rw [cnt_mergeCount, hp2, cnt_nil]; ring)
            have e2 : ind P (cnt ([] : PMap α)) = 0 := by
              rw [← ind_zero hP]; exact ind_congr (fun p => rfl)
            rw [e1, e2]; ring
          · rw [if_neg g, if_neg g]; ring
        · intro x hx
          rcases List.mem_append.mp hx with hx | hx
          · exact ho x hx
          · simp only [List.mem_cons, List.not_mem_nil, or_false] at hx; rw [hx]; dsimp only; omega
      · obtain ⟨i1, i2, i3, i4⟩ := scan_spec st.cfb h.srt y rest below prev st.out hwf hlast h.out (by omega) (Or.inl hr)
        rw [if_neg (by omega)]
        rw [hpk, ← l1] at i4
        generalize scan st.cfb y below prev st.out rest = p at i1 i2 i3 i4
        by_cases g : mergeCount st.cfb cur = []
        · rw [if_pos g]
          refine ⟨_, rfl, ⟨wf_addElem i2, lastE_addElem i3, srt_mergeCount h.srt hcur, i4.ok h.out, fun k => absurd g k⟩, rfl,
            fun p => cnt_mergeCount _ _ _, ⟨fun z p' => ?_, fun P z hP => ?_, i4.ok⟩⟩
          · rw [look_addElem_append i2]; exact i4.count z p'
          · rw [look_addElem_append i2]; exact i4.edges P z hP
        · rw [if_neg g]
          have e1 : p.below ++ [p.prev] ++ p.rest = p.below ++ p.prev :: p.rest := by simp
          rw [e1]
          exact ⟨_, rfl, ⟨i2, i3, srt_mergeCount h.srt hcur, i4.ok h.out, fun _ => ⟨p.prev, by simp, i1⟩⟩, rfl,
            fun p => cnt_mergeCount _ _ _, i4⟩


/-! ### The result -/

/-- Every set of the result is vertical. -/
def ResOk (res : Result α) : Prop := ∀ k ∈ res, k.2.orient = VERTICAL

/-- The cover of the set stored under `P`. -/
def rdep (res : Result α) (P : List α) (x z : Int) : Int :=
  match find res P with
  | some s => coverZ s.data x z
  | none => 0

theorem coverZ_insertMajor (s : PSet) (X : Int) (i : Interval.Ivl) (c : Int) (x z : Int) :
    coverZ (s.insertMajor X i c).data x z = coverZ s.data x z + if X ≤ x then (if i.lo ≤ z then c else 0) - (if i.hi ≤ z then c else 0) else 0 := by
  simp only [PSet.insertMajor, PSet.insertVertex, coverZ]
  simp
  split_ifs <;> omega

theorem insertKey_spec {res : Result α} (h : ResOk res) (key : List α) (X lo hi c : Int) : ResOk (insertKey res key X lo hi c) ∧
    ∀ P x z, rdep (insertKey res key X lo hi c) P x z = rdep res P x z +
      if key = P ∧ X ≤ x then (if lo ≤ z then c else 0) - (if hi ≤ z then c else 0) else 0 := by
  induction res with
  | nil =>
    refine ⟨?_, fun P x z => ?_⟩
    · intro k hk
      simp only [insertKey, List.mem_cons, List.not_mem_nil, or_false] at hk
      rw [hk]; rfl
    · unfold rdep insertKey find
      by_cases g : key = P
      · rw [if_pos g]
        simp only [find, coverZ_insertMajor, g, true_and]
        have : coverZ (PSet.mk0 VERTICAL).data x z = 0 := rfl
        rw [this]
      · rw [if_neg g]; simp [find, g]
  | cons k res ih =>
    obtain ⟨i1, i2⟩ := ih (fun x hx => h x (by simp [hx]))
    refine ⟨?_, fun P x z => ?_⟩
    · intro x hx
      unfold insertKey at hx
      split at hx
      · rcases List.mem_cons.mp hx with rfl | hx
        · exact h (k.1, k.2) (by simp)
        · exact h x (by simp [hx])
      · rcases List.mem_cons.mp hx with rfl | hx
        · exact h (k.1, k.2) (by simp)
        · exact i1 x hx
    · have hi2 := i2 P x z
      unfold rdep at hi2 ⊢
      unfold insertKey
      by_cases g : k.1 = key
      · rw [if_pos g]
        by_cases g2 : k.1 = P
        · simp only [find, if_pos g2, coverZ_insertMajor]
          rw [← g, g2]; simp
        · simp only [find, if_neg g2]
          rw [if_neg (fun k' => g2 (g.trans k'.1))]; ring
      · rw [if_neg g]
        by_cases g2 : k.1 = P
        · simp only [find, if_pos g2]
          rw [if_neg (fun k' => g (g2.trans k'.1.symm))]; ring
        · simp only [find, if_neg g2]
          exact hi2

theorem writeOutput_spec (X : Int) (out : List (Edge α)) : ∀ {res : Result α}, ResOk res → OutOk out →
    ResOk (writeOutput X res out) ∧ ∀ P x z, P ≠ [] →
      rdep (writeOutput X res out) P x z = rdep res P x z + if X ≤ x then osum P z out else 0 := by
  induction out with
  | nil => intro res h _; exact ⟨h, fun P x z _ => by simp [writeOutput, osum]⟩
  | cons e out ih =>
    intro res h ho
    have he := ho e (by simp)
    have step : ∀ {res : Result α}, ResOk res → ∀ (key : List α) (c : Int),
        ResOk (if key ≠ [] then insertKey res key X e.lo e.hi c else res) ∧ ∀ P x z, P ≠ [] →
        rdep (if key ≠ [] then insertKey res key X e.lo e.hi c else res) P x z = rdep res P x z +
          if key = P ∧ X ≤ x then (if e.lo ≤ z then c else 0) - (if e.hi ≤ z then c else 0) else 0 := by
      intro res h key c
      by_cases g : key ≠ []
      · rw [if_pos g]
        obtain ⟨a, b⟩ := insertKey_spec h key X e.lo e.hi c
        exact ⟨a, fun P x z _ => b P x z⟩
      · rw [if_neg g]
        refine ⟨h, fun P x z hP => ?_⟩
        rw [if_neg]; · ring
        rintro ⟨rfl, -⟩
        exact g hP
    obtain ⟨a1, a2⟩ := step h e.left (-1)
    obtain ⟨b1, b2⟩ := step a1 e.right 1
    obtain ⟨c1, c2⟩ := ih b1 (fun x hx => ho x (by simp [hx]))
    refine ⟨c1, fun P x z hP => ?_⟩
    have : writeOutput X res (e :: out) = writeOutput X
      (if e.right ≠ [] then insertKey (if e.left ≠ [] then insertKey res e.left X e.lo e.hi (-1) else res) e.right X e.lo e.hi 1
        else (if e.left ≠ [] then insertKey res e.left X e.lo e.hi (-1) else res)) out := rfl
    rw [this, c2 P x z hP, b2 P x z hP, a2 P x z hP]
    simp only [osum, List.map_cons, List.sum_cons, econ]
    by_cases hx : X ≤ x
    · simp only [hx, and_true, if_true]
      by_cases h1 : e.left = P <;> by_cases h2 : e.right = P <;> simp only [h1, h2, if_true, if_false] <;> split_ifs <;> omega
    · simp only [hx, and_false, if_false]; ring

/-! ### The main loop -/

/-- Sum of the counts of property `p` over all data. -/
def tot (D : List (VP α)) (p : α) : Int := (D.map (fun d => if d.prop = p then d.c else 0)).sum
/-- Sum up to the height `z`. -/
def upto (D : List (VP α)) (z : Int) (p : α) : Int := (D.map (fun d => if d.prop = p ∧ d.y ≤ z then d.c else 0)).sum
/-- Sum over the quadrant below and left of `(x, z)`. -/
def quadr (D : List (VP α)) (x z : Int) (p : α) : Int := (D.map (fun d => if d.prop = p ∧ d.x ≤ x ∧ d.y ≤ z then d.c else 0)).sum
/-- Sum over the column `a`. -/
def col (D : List (VP α)) (a : Int) (p : α) : Int := (D.map (fun d => if d.prop = p ∧ d.x = a then d.c else 0)).sum

theorem map_sum_congr {β : Type*} {l : List β} {f g : β → Int} (h : ∀ x ∈ l, f x = g x) : (l.map f).sum = (l.map g).sum := by
  rw [List.map_congr_left h]

theorem map_sum_zero {β : Type*} {l : List β} {f : β → Int} (h : ∀ x ∈ l, f x = 0) : (l.map f).sum = 0 := by
  apply List.sum_eq_zero
  intro z hz
  obtain ⟨x, hx, rfl⟩ := List.mem_map.mp hz
  exact h x hx

theorem upto_append (A B : List (VP α)) (z : Int) (p : α) : upto (A ++ B) z p = upto A z p + upto B z p := by simp [upto]
theorem quadr_append (A B : List (VP α)) (x z : Int) (p : α) : quadr (A ++ B) x z p = quadr A x z p + quadr B x z p := by simp [quadr]
theorem tot_append (A B : List (VP α)) (p : α) : tot (A ++ B) p = tot A p + tot B p := by simp [tot]
theorem col_append (A B : List (VP α)) (a : Int) (p : α) : col (A ++ B) a p = col A a p + col B a p := by simp [col]

theorem upto_tot {A : List (VP α)} {z : Int} (h : ∀ d ∈ A, d.y ≤ z) (p : α) : upto A z p = tot A p :=
  map_sum_congr (fun d hd => by have := h d hd; simp [this])

theorem upto_zero {A : List (VP α)} {z : Int} (h : ∀ d ∈ A, z < d.y) (p : α) : upto A z p = 0 :=
  map_sum_zero (fun d hd => by have := h d hd; rw [if_neg]; rintro ⟨-, g⟩; omega)

theorem quadr_upto {A : List (VP α)} {x : Int} (h : ∀ d ∈ A, d.x ≤ x) (z : Int) (p : α) : quadr A x z p = upto A z p :=
  map_sum_congr (fun d hd => by have := h d hd; simp [this])

theorem quadr_zero {A : List (VP α)} {x : Int} (h : ∀ d ∈ A, x < d.x) (z : Int) (p : α) : quadr A x z p = 0 :=
  map_sum_zero (fun d hd => by have := h d hd; rw [if_neg]; rintro ⟨-, g, -⟩; omega)

theorem col_tot {A : List (VP α)} {a : Int} (h : ∀ d ∈ A, d.x = a) (p : α) : col A a p = tot A p :=
  map_sum_congr (fun d hd => by have := h d hd; simp [this])

theorem col_zero {A : List (VP α)} {a : Int} (h : ∀ d ∈ A, d.x ≠ a) (p : α) : col A a p = 0 :=
  map_sum_zero (fun d hd => by have := h d hd; rw [if_neg]; rintro ⟨-, g⟩; exact this g)

/-- Sorted by point. -/
def PLe (a b : VP α) : Prop := a.x < b.x ∨ (a.x = b.x ∧ a.y ≤ b.y)

/-- The invariant of the loop: `E` are the finished columns, `C` the processed vertices of the
current column, `G` those collected in `currentVertex`. -/
structure Loop (st : St α) (cx cy : Int) (cur : PMap α) (res : Result α) (E C G : List (VP α)) : Prop where
  inv : Inv st
  srt : Srt cur
  cur : ∀ p, cnt cur p = tot G p
  hE : ∀ d ∈ E, d.x < cx
  hC : ∀ d ∈ C, d.x = cx ∧ d.y ≤ st.prevY ∧ d.y < cy
  hG : ∀ d ∈ G, d.x = cx ∧ d.y = cy
  curNe : G ≠ []
  prev : C ≠ [] → st.prevY < cy
  start : C = [] → st.cfb = []
  cfb : ∀ p, cnt st.cfb p = tot C p
  scan : ∀ z p, cnt (look [] st.scanline z) p = upto E z p + if z < st.prevY then upto C z p else 0
  edges : ∀ P z, P ≠ [] → osum P z st.out = ind P (cnt (look [] st.scanline z)) - ind P (upto E z)
  resOk : ResOk res
  res : ∀ P x z, P ≠ [] → rdep res P x z = ind P (quadr E x z)

/-- Processing the current vertex. -/
theorem loop_step {st : St α} {cx cy : Int} {cur : PMap α} {res : Result α} {E C G : List (VP α)}
    (h : Loop st cx cy cur res E C G) : ∃ st', processVertex st cy cur = some st' ∧ Inv st' ∧ st'.prevY = cy ∧
      (∀ p, cnt st'.cfb p = tot (C ++ G) p) ∧
      (∀ z p, cnt (look [] st'.scanline z) p = upto E z p + if z < cy then upto (C ++ G) z p else 0) ∧
      (∀ P z, P ≠ [] → osum P z st'.out = ind P (cnt (look [] st'.scanline z)) - ind P (upto E z)) := by
  obtain ⟨st', e1, e2, e3, e4, e5⟩ := processVertex_spec h.inv h.srt (y := cy) (fun g => h.prev (fun k => g (h.start k)))
  refine ⟨st', e1, e2, e3, fun p => ?_, fun z p => ?_, fun P z hP => ?_⟩
  · rw [e4, h.cfb, h.cur, tot_append]
  · rw [e5.count, h.scan, h.cfb, upto_append]
    by_cases hC : C = []
    · subst hC
      have h1 : tot ([] : List (VP α)) p = 0 := rfl
      have h2 : upto ([] : List (VP α)) z p = 0 := rfl
      rw [h1, h2]
      by_cases hz : z < cy
      · rw [upto_zero (A := G) (fun d hd => by have := h.hG d hd; omega)]; simp
      · rw [if_neg hz]; simp
    · have hpy := h.prev hC
      by_cases hz : z < cy
      · rw [if_pos hz, upto_zero (A := G) (fun d hd => by have := h.hG d hd; omega)]
        by_cases hz2 : z < st.prevY
        · rw [if_pos hz2, if_neg (by omega)]; ring
        · rw [if_neg hz2, if_pos (by omega), upto_tot (A := C) (fun d hd => by have := h.hC d hd; omega)]; ring
      · rw [if_neg (by omega), if_neg (by omega), if_neg hz]; ring
  · rw [e5.edges P z hP, h.edges P z hP]; ring

/-- Finishing the current column. -/
theorem loop_column {st : St α} {cx cy : Int} {cur : PMap α} {res : Result α} {E C G : List (VP α)}
    (h : Loop st cx cy cur res E C G) {st' : St α} (hi : Inv st')
    (hs : ∀ z p, cnt (look [] st'.scanline z) p = upto E z p + if z < cy then upto (C ++ G) z p else 0)
    (ho : ∀ P z, P ≠ [] → osum P z st'.out = ind P (cnt (look [] st'.scanline z)) - ind P (upto E z))
    (hcol : ∀ p, tot (C ++ G) p = 0) :
    (∀ z p, cnt (look [] st'.scanline z) p = upto (E ++ (C ++ G)) z p) ∧ ResOk (writeOutput cx res st'.out) ∧
    ∀ P x z, P ≠ [] → rdep (writeOutput cx res st'.out) P x z = ind P (quadr (E ++ (C ++ G)) x z) := by
  have hy : ∀ d ∈ C ++ G, d.x = cx ∧ d.y ≤ cy := by
    intro d hd
    rcases List.mem_append.mp hd with hd | hd
    · have := h.hC d hd; omega
    · have := h.hG d hd; omega
  have h1 : ∀ z p, cnt (look [] st'.scanline z) p = upto (E ++ (C ++ G)) z p := by
    intro z p
    rw [hs, upto_append E]
    by_cases hz : z < cy
    · rw [if_pos hz]
    · rw [if_neg hz, upto_tot (A := C ++ G) (fun d hd => by have := hy d hd; omega), hcol]
  obtain ⟨w1, w2⟩ := writeOutput_spec cx st'.out h.resOk hi.out
  refine ⟨h1, w1, fun P x z hP => ?_⟩
  rw [w2 P x z hP, h.res P x z hP]
  by_cases hx : cx ≤ x
  · rw [if_pos hx, ho P z hP]
    have a1 : ind P (quadr E x z) = ind P (upto E z) := ind_congr (fun p => quadr_upto (fun d hd => by have := h.hE d hd; omega) z p)
    have a2 : ind P (quadr (E ++ (C ++ G)) x z) = ind P (cnt (look [] st'.scanline z)) := ind_congr (fun p => by
      rw [h1, quadr_upto]
      intro d hd
      rcases List.mem_append.mp hd with hd | hd
      · have := h.hE d hd; omega
      · have := hy d hd; omega)
    rw [a1, a2]; ring
  · rw [if_neg hx, add_zero]
    refine ind_congr (fun p => ?_)
    rw [quadr_append E, quadr_zero (A := C ++ G) (fun d hd => by have := hy d hd; omega)]; ring

theorem mergeGo_spec (rest : List (VP α)) : ∀ {st : St α} {cx cy : Int} {cur : PMap α} {res : Result α} {E C G : List (VP α)},
    Loop st cx cy cur res E C G → rest.Pairwise PLe → (∀ d ∈ rest, cx < d.x ∨ (cx = d.x ∧ cy ≤ d.y)) →
    (∀ a p, col (E ++ (C ++ G) ++ rest) a p = 0) →
    ∃ res', mergeGo st cx cy cur res rest = some res' ∧ ResOk res' ∧
      ∀ P x z, P ≠ [] → rdep res' P x z = ind P (quadr (E ++ (C ++ G) ++ rest) x z) := by
  induction rest with
  | nil =>
    intro st cx cy cur res E C G h _ _ hcl
    obtain ⟨st', e1, e2, e3, e4, e5, e6⟩ := loop_step h
    have hcol : ∀ p, tot (C ++ G) p = 0 := by
      intro p
      have := hcl cx p
      rw [List.append_nil, col_append E, col_zero (A := E) (fun d hd => by have := h.hE d hd; omega), col_tot] at this
      · omega
      · intro d hd
        rcases List.mem_append.mp hd with hd | hd
        · exact (h.hC d hd).1
        · exact (h.hG d hd).1
    obtain ⟨c1, c2, c3⟩ := loop_column h e2 e5 e6 hcol
    refine ⟨_, by simp [mergeGo, e1], c2, fun P x z hP => ?_⟩
    rw [List.append_nil]
    exact c3 P x z hP
  | cons d r ih =>
    intro st cx cy cur res E C G h hs hge hcl
    have hs' := List.pairwise_cons.mp hs
    have hd := hge d (by simp)
    unfold mergeGo
    by_cases hpt : d.x = cx ∧ d.y = cy
    · rw [if_neg (by simpa using hpt)]
      have hL : Loop st cx cy (mergeProperty cur (d.prop, d.c)) res E C (G ++ [d]) :=
        { h with
          srt := srt_mergeProperty h.srt _
          cur := fun p => by rw [cnt_mergeProperty, h.cur, tot_append]; simp [tot]
          curNe := by simp
          hG := fun x hx => by
            rcases List.mem_append.mp hx with hx | hx
            · exact h.hG x hx
            · simp only [List.mem_cons, List.not_mem_nil, or_false] at hx; rw [hx]; exact hpt }
      have e : E ++ (C ++ G) ++ d :: r = E ++ (C ++ (G ++ [d])) ++ r := by simp
      rw [e] at hcl
      obtain ⟨res', r1, r2, r3⟩ := ih hL hs'.2 (fun x hx => hge x (by simp [hx])) hcl
      refine ⟨res', r1, r2, ?_⟩
      rw [e]; exact r3
    · rw [if_pos hpt]
      obtain ⟨st', e1, e2, e3, e4, e5, e6⟩ := loop_step h
      have hG1 : ∀ p, cnt (mergeProperty [] (d.prop, d.c)) p = tot [d] p := by
        intro p; rw [cnt_mergeProperty, cnt_nil]; simp [tot]
      have hS1 : Srt (mergeProperty ([] : PMap α) (d.prop, d.c)) := srt_mergeProperty List.Pairwise.nil _
      have hrest : ∀ x ∈ r, d.x < x.x ∨ (d.x = x.x ∧ d.y ≤ x.y) := fun x hx => hs'.1 x hx
      by_cases hx : d.x = cx
      · rw [if_neg (by simpa using hx)]
        simp only [e1, Option.bind_eq_bind, Option.bind_some]
        have hlt : cy < d.y := by
          rcases hd with g | g
          · omega
          · have : d.y ≠ cy := fun k => hpt ⟨hx, k⟩
            omega
        have hL : Loop st' d.x d.y (mergeProperty [] (d.prop, d.c)) res E (C ++ G) [d] :=
          { inv := e2, srt := hS1, cur := hG1
            hE := fun x hxE => by have := h.hE x hxE; omega
            hC := fun x hxC => by
              rw [e3]
              rcases List.mem_append.mp hxC with k | k
              · have := h.hC x k; omega
              · have := h.hG x k; omega
            hG := fun x hx' => by simp only [List.mem_cons, List.not_mem_nil, or_false] at hx'; rw [hx']; exact ⟨rfl, rfl⟩
            curNe := by simp
            prev := fun _ => by rw [e3]; exact hlt
            start := fun k => by
              exfalso
              have hGne : G = [] := (List.append_eq_nil_iff.mp k).2
              exact h.curNe hGne
            cfb := e4
            scan := fun z p => by rw [e3]; exact e5 z p
            edges := e6, resOk := h.resOk, res := h.res }
        have e : E ++ (C ++ G) ++ d :: r = E ++ ((C ++ G) ++ [d]) ++ r := by simp
        rw [e] at hcl
        obtain ⟨res', r1, r2, r3⟩ := ih hL hs'.2 hrest hcl
        refine ⟨res', r1, r2, ?_⟩
        rw [e]; exact r3
      · rw [if_pos hx]
        simp only [e1, Option.bind_eq_bind, Option.bind_some]
        have hlt : cx < d.x := by
          rcases hd with g | g
          · exact g
          · exact absurd g.1.symm hx
        have hCG : ∀ x ∈ C ++ G, x.x = cx := by
          intro x hx
          rcases List.mem_append.mp hx with k | k
          · exact (h.hC x k).1
          · exact (h.hG x k).1
        have hcol : ∀ p, tot (C ++ G) p = 0 := by
          intro p
          have := hcl cx p
          rw [col_append, col_append E, col_zero (A := E) (fun d hd => by have := h.hE d hd; omega), col_tot hCG,
            col_zero (A := d :: r)] at this
          · omega
          · intro x hx'
            rcases List.mem_cons.mp hx' with rfl | hx'
            · exact hx
            · have := hrest x hx'; omega
        obtain ⟨c1, c2, c3⟩ := loop_column h e2 e5 e6 hcol
        have hL : Loop { st' with cfb := [], out := [] } d.x d.y (mergeProperty [] (d.prop, d.c)) (writeOutput cx res st'.out)
            (E ++ (C ++ G)) [] [d] :=
          { inv := ⟨e2.wf, e2.last, List.Pairwise.nil, by intro x hx'; simp at hx', fun k => absurd rfl k⟩
            srt := hS1, cur := hG1
            hE := fun x hx' => by
              rcases List.mem_append.mp hx' with k | k
              · have := h.hE x k; omega
              · have := hCG x k; omega
            hC := fun x hx' => by simp at hx'
            hG := fun x hx' => by simp only [List.mem_cons, List.not_mem_nil, or_false] at hx'; rw [hx']; exact ⟨rfl, rfl⟩
            curNe := by simp
            prev := fun k => absurd rfl k
            start := fun _ => rfl
            cfb := fun p => rfl
            scan := fun z p => by
              have : upto ([] : List (VP α)) z p = 0 := rfl
              rw [this]; simp [c1]
            edges := fun P z hP => by
              have : ind P (cnt (look [] st'.scanline z)) = ind P (upto (E ++ (C ++ G)) z) := ind_congr (c1 z)
              show osum P z [] = _
              rw [this]; simp [osum]
            resOk := c2, res := c3 }
        have e : E ++ (C ++ G) ++ d :: r = (E ++ (C ++ G)) ++ ([] ++ [d]) ++ r := by simp
        rw [e] at hcl
        obtain ⟨res', r1, r2, r3⟩ := ih hL hs'.2 hrest hcl
        refine ⟨res', r1, r2, ?_⟩
        rw [e]; exact r3

end Verif.PropertyMerge
