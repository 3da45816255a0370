import Verif.Proofs.MaxCoverVisit
/-! The rectangles written are the maximal rectangles of the region (helper lemmas for C67). -/
namespace Verif.MaxCover
open Verif.RectForm Verif.Interval Verif.BooleanOp

/-- The rectangle is proper and inside the region. -/
def Fits (cov : Int → Int → Prop) (r : SR) : Prop := r.pl < r.ph ∧ r.lo < r.hi ∧ ∀ x y, InSR r x y → cov x y

/-- Containment of rectangles. -/
def SubR (r q : SR) : Prop := q.pl ≤ r.pl ∧ r.ph ≤ q.ph ∧ q.lo ≤ r.lo ∧ r.hi ≤ q.hi

/-- No larger rectangle is inside the region. -/
def Maxl (cov : Int → Int → Prop) (r : SR) : Prop := Fits cov r ∧ ∀ q, Fits cov q → SubR r q → q = r

abbrev Desc (ch : Nd → List Nd) := Relation.ReflTransGen (PS ch)

variable {cov : Int → Int → Prop} {rs : List SR}

/-- A covered stretch of a column lies in one tile. -/
theorem Tiling.col (h : Tiling cov rs) {x lo hi : Int} (hlh : lo < hi) (hc : ∀ y, lo ≤ y → y < hi → cov x y) :
    ∃ t ∈ rs, t.pl ≤ x ∧ x < t.ph ∧ t.lo ≤ lo ∧ hi ≤ t.hi := by
  obtain ⟨t, ht, h1, h2, h3, h4⟩ := (h.cover x lo).1 (hc lo (le_refl _) hlh)
  refine ⟨t, ht, h1, h2, h3, ?_⟩
  by_contra hn
  exact (h.slab t ht x h1 h2).2 (hc _ (by omega) (by omega))

/-- The graph of the tiles. -/
structure Gr (cov : Int → Int → Prop) (rs : List SR) (ch : Nd → List Nd) : Prop where
  t : Tiling cov rs
  c : ∀ n ∈ nodes rs, ∀ c, c ∈ ch n ↔ c ∈ nodes rs ∧ Adj n c

variable {ch : Nd → List Nd}

theorem Gr.pos (h : Gr cov rs ch) {n : Nd} (hn : n ∈ nodes rs) : n.rect.pl < n.rect.ph ∧ n.rect.lo < n.rect.hi := h.t.pos _ (nodes_mem hn)

theorem Gr.hG (h : Gr cov rs ch) : ∀ n, n ∈ nodes rs → ∀ c ∈ ch n, c ∈ nodes rs ∧ n.rect.ph < c.rect.ph := fun n hn c hc => by
  obtain ⟨h1, h2, -⟩ := (h.c n hn c).1 hc
  exact ⟨h1, by have := h.pos h1; omega⟩

theorem Gr.hov (h : Gr cov rs ch) : ∀ n, n ∈ nodes rs → ∀ c ∈ ch n, (cl (ivl n.rect) c).2 = true := fun n hn c hc => by
  obtain ⟨h1, h2, h3, h4⟩ := (h.c n hn c).1 hc
  rw [cl_iff]
  have := h.pos h1
  have := h.pos hn
  show max n.rect.lo c.rect.lo < min n.rect.hi c.rect.hi
  omega

theorem Gr.hM (_ : Gr cov rs ch) : ∃ M : Int, ∀ n, n ∈ nodes rs → n.rect.ph ≤ M := by
  induction nodes rs with
  | nil => exact ⟨0, by simp⟩
  | cons a t ih =>
    obtain ⟨M, hM⟩ := ih
    refine ⟨max M a.rect.ph, fun n hn => ?_⟩
    rcases List.mem_cons.1 hn with rfl | hn
    · exact le_max_right _ _
    · exact le_trans (hM n hn) (le_max_left _ _)

/-- What is known of a pair reached from a root. -/
structure Fact (cov : Int → Int → Prop) (rs : List SR) (ρ : Nd) (p : Pr) : Prop where
  mem : p.1 ∈ nodes rs
  ne : p.2.lo < p.2.hi
  inn : p.1.rect.lo ≤ p.2.lo ∧ p.2.hi ≤ p.1.rect.hi
  root : ρ.rect.lo ≤ p.2.lo ∧ p.2.hi ≤ ρ.rect.hi
  le : ρ.rect.pl < p.1.rect.ph
  inside : ∀ x y, ρ.rect.pl ≤ x → x < p.1.rect.ph → p.2.lo ≤ y → y < p.2.hi → cov x y
  lo : ∃ x, ρ.rect.pl ≤ x ∧ x < p.1.rect.ph ∧ ¬ cov x (p.2.lo - 1)
  hi : ∃ x, ρ.rect.pl ≤ x ∧ x < p.1.rect.ph ∧ ¬ cov x p.2.hi

theorem Gr.fact (h : Gr cov rs ch) {ρ : Nd} (hρ : ρ ∈ nodes rs) {p : Pr} (hd : Desc ch (ρ, ivl ρ.rect) p) : Fact cov rs ρ p := by
  induction hd with
  | refl =>
    have hp := h.pos hρ
    have hs := h.t.slab _ (nodes_mem hρ) ρ.rect.pl (le_refl _) hp.1
    exact ⟨hρ, hp.2, ⟨le_refl _, le_refl _⟩, ⟨le_refl _, le_refl _⟩, hp.1,
      fun x y h1 h2 h3 h4 => (h.t.cover x y).2 ⟨_, nodes_mem hρ, h1, h2, h3, h4⟩,
      ⟨_, le_refl _, hp.1, hs.1⟩, ⟨_, le_refl _, hp.1, hs.2⟩⟩
  | @tail b c _ hs ih =>
    obtain ⟨s1, s2, s3⟩ := hs
    obtain ⟨c1, c2, c3, c4⟩ := (h.c b.1 ih.mem c.1).1 s1
    have hv := cl_val s2
    rw [cl_iff] at s2
    rw [hv] at s3
    have hlo : c.2.lo = max b.2.lo c.1.rect.lo := by rw [s3]
    have hhi : c.2.hi = min b.2.hi c.1.rect.hi := by rw [s3]
    have hpos := h.pos c1
    have := ih.le
    have hs := h.t.slab _ (nodes_mem c1) c.1.rect.pl (le_refl _) hpos.1
    refine ⟨c1, by omega, by omega, by have := ih.root; omega, by omega, fun x y h1 h2 h3 h4 => ?_, ?_, ?_⟩
    · by_cases hx : x < b.1.rect.ph
      · exact ih.inside x y h1 hx (by omega) (by omega)
      · exact (h.t.cover x y).2 ⟨_, nodes_mem c1, by omega, h2, by omega, by omega⟩
    · rcases le_total c.1.rect.lo b.2.lo with hl | hl
      · obtain ⟨x, x1, x2, x3⟩ := ih.lo
        refine ⟨x, x1, by omega, ?_⟩
        rwa [show c.2.lo = b.2.lo by omega]
      · refine ⟨c.1.rect.pl, by omega, hpos.1, ?_⟩
        rw [show c.2.lo = c.1.rect.lo by omega]
        exact hs.1
    · rcases le_total b.2.hi c.1.rect.hi with hl | hl
      · obtain ⟨x, x1, x2, x3⟩ := ih.hi
        refine ⟨x, x1, by omega, ?_⟩
        rwa [show c.2.hi = b.2.hi by omega]
      · refine ⟨c.1.rect.pl, by omega, hpos.1, ?_⟩
        rw [show c.2.hi = c.1.rect.hi by omega]
        exact hs.2

/-- A pair reached from `ρ` is also reached from a tile left of `ρ` that contains the interval. -/
theorem Gr.shift (h : Gr cov rs ch) {ρ t : Nd} (ht : t ∈ nodes rs) (hρ : ρ ∈ nodes rs) (hc : ρ ∈ ch t)
    {l u : Int} (hlu : l < u) (h1 : t.rect.lo ≤ l) (h2 : u ≤ t.rect.hi) {p : Pr} (hd : Desc ch (ρ, ivl ρ.rect) p) (h3 : p.2.lo ≤ l) (h4 : u ≤ p.2.hi) :
    Desc ch (t, ivl t.rect) (p.1, ⟨max t.rect.lo p.2.lo, min t.rect.hi p.2.hi⟩) := by
  induction hd with
  | refl =>
    refine Relation.ReflTransGen.single ⟨hc, h.hov t ht ρ hc, ?_⟩
    rw [cl_val (h.hov t ht ρ hc)]
    rfl
  | @tail b c hb hs ih =>
    obtain ⟨s1, s2, s3⟩ := hs
    rw [cl_val s2] at s3
    have hlo : c.2.lo = max b.2.lo c.1.rect.lo := by rw [s3]
    have hhi : c.2.hi = min b.2.hi c.1.rect.hi := by rw [s3]
    refine (ih (by omega) (by omega)).tail ⟨s1, ?_, ?_⟩
    · rw [cl_iff]
      show max (max t.rect.lo b.2.lo) c.1.rect.lo < min (min t.rect.hi b.2.hi) c.1.rect.hi
      omega
    · rw [cl_val]
      · show (⟨_, _⟩ : Ivl) = ⟨_, _⟩
        rw [hlo, hhi]
        simp only [Ivl.mk.injEq]
        constructor <;> omega
      · rw [cl_iff]
        show max (max t.rect.lo b.2.lo) c.1.rect.lo < min (min t.rect.hi b.2.hi) c.1.rect.hi
        omega

theorem Gr.abut (h : Gr cov rs ch) {n : Nd} (hn : n ∈ nodes rs) {x lo hi : Int} (hlh : lo < hi) (h1 : n.rect.lo ≤ lo) (h2 : hi ≤ n.rect.hi)
    (hx : x = n.rect.ph) (hc : ∀ y, lo ≤ y → y < hi → cov x y) :
    ∃ c ∈ ch n, c.rect.lo ≤ lo ∧ hi ≤ c.rect.hi ∧ c.rect.pl = x ∧ x < c.rect.ph := by
  obtain ⟨t, ht, t1, t2, t3, t4⟩ := h.t.col hlh hc
  obtain ⟨c, hcn, rfl⟩ := nodes_of ht
  have hp := h.pos hn
  have : c.rect.pl = x := by
    by_contra hne
    have := h.t.disj _ ht _ (nodes_mem hn) (x - 1) lo ⟨by omega, by omega, by omega, by omega⟩ ⟨by omega, by omega, by omega, by omega⟩
    rw [this] at t2
    omega
  exact ⟨c, (h.c n hn c).2 ⟨hcn, by omega, by omega, by omega⟩, t3, t4, this, t2⟩

/-- A root and what follows from it covers any stretch that starts with the root. -/
theorem Gr.chain (h : Gr cov rs ch) {ρ : Nd} (hρ : ρ ∈ nodes rs) {lo hi b : Int} (hlh : lo < hi) (h1 : ρ.rect.lo ≤ lo) (h2 : hi ≤ ρ.rect.hi)
    (hc : ∀ x y, ρ.rect.pl ≤ x → x < b → lo ≤ y → y < hi → cov x y) (k : Nat) (hk : ρ.rect.pl + k < b) :
    ∃ p, Desc ch (ρ, ivl ρ.rect) p ∧ p.2.lo ≤ lo ∧ hi ≤ p.2.hi ∧ p.1.rect.pl ≤ ρ.rect.pl + k ∧ ρ.rect.pl + k < p.1.rect.ph := by
  induction k with
  | zero => exact ⟨_, Relation.ReflTransGen.refl, h1, h2, by simp, by have := h.pos hρ; simpa using this.1⟩
  | succ k ih =>
    push_cast at hk ⊢
    obtain ⟨p, d, q1, q2, q3, q4⟩ := ih (by omega)
    by_cases hx : ρ.rect.pl + (k + 1) < p.1.rect.ph
    · exact ⟨p, d, q1, q2, by omega, hx⟩
    · have hf := h.fact hρ d
      obtain ⟨c, c1, c2, c3, c4, c5⟩ := h.abut (x := ρ.rect.pl + (k + 1)) hf.mem hlh (by have := hf.inn; omega) (by have := hf.inn; omega)
        (by omega) (fun y y1 y2 => hc _ y (by omega) (by omega) y1 y2)
      have hcl : (cl p.2 c).2 = true := by rw [cl_iff]; omega
      refine ⟨(c, (cl p.2 c).1), d.tail ⟨c1, hcl, rfl⟩, ?_, ?_, by show c.rect.pl ≤ _; omega, c5⟩
      · rw [cl_val hcl]; show max _ _ ≤ lo; omega
      · rw [cl_val hcl]; show hi ≤ min _ _; omega

/-- What is known of a recorded pair and the root it was first reached from. -/
def Rec (rs : List SR) (ch : Nd → List Nd) (q : Pr × Int) : Prop :=
  ∃ ρ ∈ nodes rs, ρ.rect.pl = q.2 ∧ Desc ch (ρ, ivl ρ.rect) q.1 ∧
    ∀ t ∈ nodes rs, t.rect.ph = ρ.rect.pl → ¬ (t.rect.lo ≤ q.1.2.lo ∧ q.1.2.hi ≤ t.rect.hi)

theorem mem_ext_iff {n : Nd} {i : Ivl} : extends_ ch n i = true ↔ ∃ c ∈ ch n, (c.rect.lo ≤ i.lo ∧ i.lo ≤ c.rect.hi) ∧ c.rect.lo ≤ i.hi ∧ i.hi ≤ c.rect.hi := by
  unfold extends_
  rw [List.any_eq_true]
  simp [containsIvl, containsVal, ivl, Ivl.get, Verif.Isotropy.LOW, Verif.Isotropy.HIGH, and_comm]

theorem Gr.sound (h : Gr cov rs ch) {q : Pr × Int} (hr : Rec rs ch q) (hw : wr ch q.1 = true) : Maxl cov (outR q.2 q.1) := by
  obtain ⟨ρ, hρ, e, hd, hl⟩ := hr
  have hf := h.fact hρ hd
  have hne := hf.ne
  have hle := hf.le
  refine ⟨⟨by show q.2 < q.1.1.rect.ph; omega, hne, fun x y hi => ?_⟩, fun r hr hs => ?_⟩
  · obtain ⟨i1, i2, i3, i4⟩ := hi
    exact hf.inside x y (by rw [e]; exact i1) i2 i3 i4
  · obtain ⟨s1, s2, s3, s4⟩ := hs
    obtain ⟨r1, r2, r3⟩ := hr
    simp only [outR] at s1 s2 s3 s4
    have e1 : r.lo = q.1.2.lo := by
      by_contra hn
      obtain ⟨x, x1, x2, x3⟩ := hf.lo
      exact x3 (r3 x _ ⟨by omega, by omega, by omega, by omega⟩)
    have e2 : r.hi = q.1.2.hi := by
      by_contra hn
      obtain ⟨x, x1, x2, x3⟩ := hf.hi
      exact x3 (r3 x _ ⟨by omega, by omega, by omega, by omega⟩)
    have e3 : r.ph = q.1.1.rect.ph := by
      by_contra hn
      obtain ⟨c, c1, c2, c3, -⟩ := h.abut (x := q.1.1.rect.ph) hf.mem hne hf.inn.1 hf.inn.2 rfl
        (fun y y1 y2 => r3 _ y ⟨by omega, by omega, by omega, by omega⟩)
      have : extends_ ch q.1.1 q.1.2 = true := mem_ext_iff.2 ⟨c, c1, ⟨c2, by omega⟩, by omega, c3⟩
      simp [wr, this] at hw
    have e4 : r.pl = q.2 := by
      by_contra hn
      obtain ⟨t, ht, t1, t2, t3, t4⟩ := h.t.col (x := q.2 - 1) hne (fun y y1 y2 => r3 _ y ⟨by omega, by omega, by omega, by omega⟩)
      obtain ⟨n, hn, rfl⟩ := nodes_of ht
      refine hl n hn ?_ ⟨t3, t4⟩
      by_contra hne'
      have hρp := h.pos hρ
      have hroot := hf.root
      have := h.t.disj _ ht _ (nodes_mem hρ) q.2 q.1.2.lo ⟨by omega, by omega, by omega, by omega⟩ ⟨by omega, by omega, by omega, by omega⟩
      rw [this] at t1
      omega
    cases r
    simp only at e1 e2 e3 e4
    subst e1 e2 e3 e4
    rfl

/-- The state between roots, `dn` being done. -/
def RI (rs : List SR) (ch : Nd → List Nd) (dn : List Nd) (m : Mem) : Prop :=
  ∃ L : List (Pr × Int), m.T = L.map (fun q => key q.1) ∧ (L.map (fun q => key q.1)).Nodup ∧ (∀ q ∈ L, q.1.1 ∈ nodes rs ∧ Rec rs ch q) ∧
    ClosedT ch (· ∈ nodes rs) m.T ∧ m.O.Perm ((L.filter (fun q => wr ch q.1)).map (fun q => outR q.2 q.1)) ∧
    ∀ ρ ∈ dn, (ρ.id, ivl ρ.rect) ∈ m.T

theorem desc_mem {T : List (Nat × Ivl)} (h : Gr cov rs ch) (hc : ClosedT ch (· ∈ nodes rs) T) {p q : Pr} (hp : p.1 ∈ nodes rs)
    (hk : key p ∈ T) (hd : Desc ch p q) : q.1 ∈ nodes rs ∧ key q ∈ T := by
  induction hd with
  | refl => exact ⟨hp, hk⟩
  | tail _ hs ih =>
    obtain ⟨s1, s2, s3⟩ := hs
    refine ⟨(h.hG _ ih.1 _ s1).1, ?_⟩
    have := hc _ ih.1 ih.2 _ s1 s2
    unfold key
    rwa [s3]

theorem Gr.roots (h : Gr cov rs ch) (rest : List Nd) : ∀ (dn : List Nd) (m : Mem), nodes rs = dn ++ rest → RI rs ch dn m →
    ∃ m', (∃ N, ∀ k, N ≤ k → rest.foldlM (coverRoot ch k) m = some m') ∧ RI rs ch (nodes rs) m' := by
  induction rest with
  | nil => intro dn m e hm; exact ⟨m, ⟨0, fun _ _ => rfl⟩, by rw [e]; simpa using hm⟩
  | cons ρ rest ih =>
    intro dn m e hm
    obtain ⟨L, l1, l2, l3, l4, l5, l6⟩ := hm
    obtain ⟨M, hM⟩ := h.hM
    have hρ : ρ ∈ nodes rs := by rw [e]; simp
    obtain ⟨m', ⟨N, hN⟩, ha, hcl, hk⟩ := root_spec (G := (· ∈ nodes rs)) h.hG hM (fun a b ha hb => nodes_id ha hb) h.hov hρ
      (S := fun p => p.1 ∈ nodes rs ∧ Desc ch (ρ, ivl ρ.rect) p) (fun p q hp hs => ⟨(h.hG _ hp.1 _ hs.1).1, hp.2.tail hs⟩)
      (fun p hp => hp.1) ⟨hρ, Relation.ReflTransGen.refl⟩ m l4
    obtain ⟨A, a1, a2, a3, a4⟩ := id ha
    have hRI : RI rs ch (dn ++ [ρ]) m' := by
      refine ⟨L ++ A.map (fun p => (p, ρ.rect.pl)), ?_, ?_, fun q hq => ?_, hcl, ?_, fun n hn => ?_⟩
      · rw [a1, l1]; simp
      · rw [List.map_append, List.map_map, List.nodup_append]
        refine ⟨l2, a2, fun x hx y hy exy => ?_⟩
        obtain ⟨p, hp, rfl⟩ := List.mem_map.1 hy
        subst exy
        exact (a3 p hp).1 (by rw [l1]; exact hx)
      · rcases List.mem_append.1 hq with hq | hq
        · exact l3 q hq
        · obtain ⟨p, hp, rfl⟩ := List.mem_map.1 hq
          obtain ⟨b1, ⟨b2, b3⟩, b4⟩ := a3 p hp
          refine ⟨b2, ρ, hρ, rfl, b3, fun t ht htp hcon => b1 ?_⟩
          have hf := h.fact hρ b3
          have hne := hf.ne
          have hroot := hf.root
          simp only at hcon
          have hch : ρ ∈ ch t := (h.c t ht ρ).2 ⟨hρ, htp.symm, by omega, by omega⟩
          have hsh := h.shift ht hρ hch hne hcon.1 hcon.2 b3 (le_refl _) (le_refl _)
          have he : (⟨max t.rect.lo p.2.lo, min t.rect.hi p.2.hi⟩ : Ivl) = p.2 := by
            rw [max_eq_right hcon.1, min_eq_right hcon.2]
          rw [he] at hsh
          have htd : t ∈ dn := by
            have hs := nodes_pair h.t.ord
            rw [e] at hs ht
            obtain ⟨-, hs2, -⟩ := List.pairwise_append.1 hs
            rcases List.mem_append.1 ht with ht | ht
            · exact ht
            · exfalso
              have hp1 := (h.pos hρ).1
              rcases List.mem_cons.1 ht with rfl | ht
              · omega
              · have := (List.pairwise_cons.1 hs2).1 t ht
                unfold Before at this
                omega
          exact (desc_mem h l4 (p := (t, ivl t.rect)) ht (l6 t htd) hsh).2
      · rw [List.filter_append, List.map_append]
        refine a4.trans (l5.append ?_)
        rw [List.filter_map, List.map_map]
        exact List.Perm.of_eq rfl
      · rcases List.mem_append.1 hn with hn | hn
        · exact ha.sub _ (l6 n hn)
        · rw [List.mem_singleton.1 hn]; exact hk
    obtain ⟨m2, ⟨N2, hN2⟩, hf⟩ := ih (dn ++ [ρ]) m' (by rw [e]; simp) hRI
    refine ⟨m2, ⟨max N N2, fun k hk => ?_⟩, hf⟩
    rw [List.foldlM_cons, hN k (le_trans (le_max_left _ _) hk)]
    exact hN2 k (le_trans (le_max_right _ _) hk)

theorem Maxl.eq {a b : SR} (ha : Maxl cov a) (hb : Maxl cov b) (h1 : a.lo = b.lo) (h2 : a.hi = b.hi) (h3 : a.ph = b.ph) : a = b := by
  rcases le_total a.pl b.pl with h | h
  · exact hb.2 a ha.1 ⟨h, by omega, by omega, by omega⟩
  · exact (ha.2 b hb.1 ⟨h, by omega, by omega, by omega⟩).symm

theorem Gr.complete (h : Gr cov rs ch) {T : List (Nat × Ivl)} (hc : ClosedT ch (· ∈ nodes rs) T)
    (hroots : ∀ ρ ∈ nodes rs, (ρ.id, ivl ρ.rect) ∈ T) {r : SR} (hr : Maxl cov r) :
    ∃ p : Pr, p.1 ∈ nodes rs ∧ key p ∈ T ∧ wr ch p = true ∧ p.2.lo = r.lo ∧ p.2.hi = r.hi ∧ p.1.rect.ph = r.ph := by
  obtain ⟨⟨r1, r2, r3⟩, r4⟩ := hr
  obtain ⟨t, ht, t1, t2, t3, t4⟩ := h.t.col (x := r.pl) r2 (fun y y1 y2 => r3 _ y ⟨le_refl _, r1, y1, y2⟩)
  obtain ⟨ρ, hρ, rfl⟩ := nodes_of ht
  have e : ρ.rect.pl = r.pl := by
    have := r4 { r with pl := ρ.rect.pl } ⟨by show ρ.rect.pl < r.ph; omega, r2, fun x y hi => by
      obtain ⟨i1, i2, i3, i4⟩ := hi
      dsimp only at i1 i2 i3 i4
      by_cases hx : r.pl ≤ x
      · exact r3 x y ⟨hx, i2, i3, i4⟩
      · exact (h.t.cover x y).2 ⟨_, ht, i1, by omega, by omega, by omega⟩⟩ ⟨t1, le_refl _, le_refl _, le_refl _⟩
    have := congrArg SR.pl this
    exact this
  obtain ⟨p, hd, p1, p2, p3, p4⟩ := h.chain hρ r2 t3 t4 (b := r.ph) (fun x y x1 x2 y1 y2 => r3 x y ⟨by omega, x2, y1, y2⟩)
    (r.ph - 1 - ρ.rect.pl).toNat (by omega)
  have hf := h.fact hρ hd
  have heq := r4 ⟨p.2.lo, p.2.hi, ρ.rect.pl, p.1.rect.ph⟩ ⟨hf.le, hf.ne, fun x y hi => hf.inside x y hi.1 hi.2.1 hi.2.2.1 hi.2.2.2⟩
    ⟨by show ρ.rect.pl ≤ r.pl; omega, by show r.ph ≤ p.1.rect.ph; omega, p1, p2⟩
  have e1 := congrArg SR.lo heq
  have e2 := congrArg SR.hi heq
  have e3 := congrArg SR.ph heq
  dsimp only at e1 e2 e3
  refine ⟨p, hf.mem, (desc_mem h hc (p := (ρ, ivl ρ.rect)) hρ (hroots ρ hρ) hd).2, ?_, e1, e2, e3⟩
  unfold wr
  rw [Bool.not_eq_true']
  by_contra hx
  rw [Bool.not_eq_false, mem_ext_iff] at hx
  obtain ⟨c, c1, c2, c3⟩ := hx
  obtain ⟨d1, d2, -⟩ := (h.c _ hf.mem c).1 c1
  have hcp := h.pos d1
  have := r4 { r with ph := c.rect.ph } ⟨by show r.pl < c.rect.ph; omega, r2, fun x y hi => by
      obtain ⟨i1, i2, i3, i4⟩ := hi
      dsimp only at i1 i2 i3 i4
      by_cases hx : x < r.ph
      · exact r3 x y ⟨i1, hx, i3, i4⟩
      · exact (h.t.cover x y).2 ⟨_, nodes_mem d1, by omega, i2, by omega, by omega⟩⟩
    ⟨le_refl _, by show r.ph ≤ c.rect.ph; omega, le_refl _, le_refl _⟩
  have := congrArg SR.ph this
  dsimp only at this
  omega

/-- `getMaxCover` on the tiles of a region writes its maximal rectangles, each once. -/
theorem Tiling.maxCover (h : Tiling cov rs) : ∃ out, (∃ N, ∀ k, N ≤ k → getMaxCover k rs = some out) ∧ out.Nodup ∧
    ∀ r, r ∈ out ↔ Maxl cov r := by
  match rs, h with
  | [], h =>
    refine ⟨[], ⟨0, fun _ _ => rfl⟩, List.nodup_nil, fun r => ?_⟩
    constructor
    · intro hr; simp at hr
    · rintro ⟨⟨h1, h2, h3⟩, -⟩
      obtain ⟨t, ht, -⟩ := (h.cover _ _).1 (h3 r.pl r.lo ⟨le_refl _, h1, le_refl _, h2⟩)
      simp at ht
  | [a], h =>
    refine ⟨[a], ⟨0, fun _ _ => rfl⟩, List.nodup_singleton _, fun r => ?_⟩
    have hp := h.pos a (by simp)
    have hcov : ∀ x y, cov x y ↔ InSR a x y := fun x y => by rw [h.cover]; simp
    have hsub : ∀ q, Fits cov q → SubR q a := fun q hq => by
      obtain ⟨q1, q2, q3⟩ := hq
      have h1 := (hcov _ _).1 (q3 q.pl q.lo ⟨le_refl _, q1, le_refl _, q2⟩)
      have h2 := (hcov _ _).1 (q3 (q.ph - 1) (q.hi - 1) ⟨by omega, by omega, by omega, by omega⟩)
      unfold InSR at h1 h2
      unfold SubR
      omega
    have hfa : Fits cov a := ⟨hp.1, hp.2, fun x y hi => (hcov x y).2 hi⟩
    have hae : ∀ q, SubR q a → SubR a q → q = a := fun q h1 h2 => by
      unfold SubR at h1 h2
      cases q; cases a
      simp only [SR.mk.injEq] at *
      omega
    rw [List.mem_singleton]
    constructor
    · rintro rfl
      exact ⟨hfa, fun q hq hs => hae q (hsub q hq) hs⟩
    · rintro ⟨h1, h2⟩
      exact (h2 a hfa (hsub r h1)).symm
  | a :: b :: t, h =>
    obtain ⟨E, e, hE⟩ := h.dag
    have hg : Gr cov (a :: b :: t) (children E) := ⟨h, hE⟩
    obtain ⟨m, ⟨N, hN⟩, L, l1, l2, l3, l4, l5, l6⟩ := hg.roots (nodes (a :: b :: t)) [] ⟨[], []⟩ rfl
      ⟨[], rfl, by simp, by simp, fun p _ hk => by simp at hk, by simp, by simp⟩
    refine ⟨m.O, ⟨N, fun k hk => ?_⟩, ?_, fun r => ?_⟩
    · have := hN k hk
      simp only [getMaxCover, e, Option.bind_eq_bind, Option.bind_some, this]
    · rw [l5.nodup_iff]
      refine List.Nodup.map_on (fun q hq q' hq' heq => ?_) (List.Nodup.filter _ (List.Nodup.of_map _ l2))
      have hq := List.mem_of_mem_filter hq
      have hq' := List.mem_of_mem_filter hq'
      refine List.inj_on_of_nodup_map l2 hq hq' ?_
      obtain ⟨n1, ρ, hρ, -, hd, -⟩ := l3 q hq
      obtain ⟨n2, ρ', hρ', -, hd', -⟩ := l3 q' hq'
      have f := hg.fact hρ hd
      have f' := hg.fact hρ' hd'
      have e1 : q.1.2.lo = q'.1.2.lo := congrArg SR.lo heq
      have e2 : q.1.2.hi = q'.1.2.hi := congrArg SR.hi heq
      have e3 := congrArg SR.ph heq
      simp only [outR] at e3
      have p1 := hg.pos n1
      have p2 := hg.pos n2
      have i1 := f.inn
      have i2 := f'.inn
      have ne := f.ne
      have er := h.disj _ (nodes_mem n1) _ (nodes_mem n2) (q.1.1.rect.ph - 1) q.1.2.lo ⟨by omega, by omega, by omega, by omega⟩
        ⟨by omega, by omega, by omega, by omega⟩
      have en := h.node_rect n1 n2 er
      show (q.1.1.id, q.1.2) = (q'.1.1.id, q'.1.2)
      rw [en]
      congr 1
      cases hx : q.1.2; cases hy : q'.1.2
      rw [hx, hy] at e1 e2
      simp only at e1 e2
      rw [e1, e2]
    · rw [l5.mem_iff, List.mem_map]
      constructor
      · rintro ⟨q, hq, rfl⟩
        obtain ⟨hq, hw⟩ := List.mem_filter.1 hq
        exact hg.sound (l3 q hq).2 hw
      · intro hr
        obtain ⟨p, p1, p2, p3, p4, p5, p6⟩ := hg.complete l4 l6 hr
        rw [l1] at p2
        obtain ⟨q, hq, ek⟩ := List.mem_map.1 p2
        have : q.1 = p := by
          have h1 : q.1.1 = p.1 := nodes_id (l3 q hq).1 p1 (congrArg Prod.fst ek)
          have h2 := congrArg Prod.snd ek
          simp only [key] at h2
          exact Prod.ext h1 h2
        refine ⟨q, List.mem_filter.2 ⟨hq, by rw [this]; exact p3⟩, ?_⟩
        refine (hg.sound (l3 q hq).2 (by rw [this]; exact p3)).eq hr ?_ ?_ ?_
        · show q.1.2.lo = r.lo; rw [this]; exact p4
        · show q.1.2.hi = r.hi; rw [this]; exact p5
        · show q.1.1.rect.ph = r.ph; rw [this]; exact p6

end Verif.MaxCover
