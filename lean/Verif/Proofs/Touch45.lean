import Verif.Proofs.T45Scan
import Verif.Proofs.Merge45
import Verif.Proofs.ArbGraph
import Verif.Spec.Touch
/-! # The graph of `connectivity_extraction_45` -/
namespace Verif.Merge45
open Verif.Deg45 Verif.Set45 Verif.Spec.Deg45 Verif.Spec.Merge45 Verif.ArbMerge

/-! ### The columns -/

theorem columns_raw {g : Cnt → Bool} {EV : Prop} (h0 : g 0 = false) (hEV : EV) {D : TSD} : ∀ (n : Nat) (t done : TSD) (st : St Cnt) (raw : List Call),
    TInv g EV D st done t raw → InOK EV t → t.length ≤ n →
    ∃ st' raw', columns rawFn n st t raw = .ok raw' ∧ TInv g EV D st' (done ++ t) [] raw'
  | n, [], done, st, raw, i, _, _ => ⟨st, raw, by unfold columns; rfl, by rw [List.append_nil]; exact i⟩
  | 0, v :: r, done, st, raw, _, _, hn => by simp at hn
  | n + 1, v :: r, done, st, raw, i, hin, hn => by
    have hge : ∀ w ∈ v :: r, v.1.1 ≤ w.1.1 := by
      intro w hw
      rcases List.mem_cons.1 hw with rfl | hw
      · exact le_refl _
      · have := (List.pairwise_cons.1 hin.sorted).1 w hw; omega
    obtain ⟨e1, e2⟩ := takeWhile_x hin.sorted hge
    unfold columns
    have ha : ∀ u ∈ (v :: r).takeWhile (fun w => decide (w.1.1 = v.1.1)), u.1.1 = v.1.1 := by
      intro u hu
      rw [e1] at hu
      simpa using (List.mem_filter.1 hu).2
    have hb : ∀ w ∈ (v :: r).dropWhile (fun w => decide (w.1.1 = v.1.1)), v.1.1 < w.1.1 := by
      intro w hw
      rw [e2] at hw
      simpa using (List.mem_filter.1 hw).2
    have hsp := List.takeWhile_append_dropWhile (p := fun w : Vert Cnt => decide (w.1.1 = v.1.1)) (l := v :: r)
    obtain ⟨i1, i2⟩ := InOK.split (by rw [hsp]; exact hin) (fun u hu w hw => by have := ha u hu; have := hb w hw; omega)
    have hle : st.x ≤ v.1.1 := by
      rcases i.fresh with h | h
      · have := h v List.mem_cons_self; omega
      · exact h.2.2.1 v List.mem_cons_self
    have i' := i
    rw [← hsp] at i'
    obtain ⟨st', raw', es, j1, j2⟩ := (scan_raw h0 (M := v.1.1) hle (fun u hu => le_of_eq (ha u hu)) hb i' i1).resolve_right (fun h => h.2 hEV)
    have es' : scan rawFn st ((v :: r).takeWhile (fun w => decide (w.1.1 = v.1.1))) raw = .ok (st', raw') := es
    rw [es']
    dsimp only
    have := columns_raw h0 hEV n _ _ st' raw' j1 i2 (by
      have hl : ((v :: r).dropWhile (fun w => decide (w.1.1 = v.1.1))).length < (v :: r).length := by
        rw [List.dropWhile_cons_of_pos (by simp)]
        have := List.length_dropWhile_le (fun w : Vert Cnt => decide (w.1.1 = v.1.1)) r
        simp only [List.length_cons]; omega
      omega)
    rw [List.append_assoc, hsp] at this
    exact this

/-- The calls of the scan: every count told at a point comes up next to it, and all that come up next to any point are told at one point. -/
theorem perform_raw {bmin : Int} {L : List (S45 × Int)} {t : TSD} (d : Data bmin L t) :
    ∃ raw, perform rawFn bmin t = .ok raw ∧ raw.Pairwise (fun a b => a.2.1 ≤ b.2.1) ∧
      (∀ k ∈ raw, ∀ c, (k.1.1 = c ∨ k.1.2 = c) → Near (ready t) k.2 c) ∧ ∀ p, Cov (ready t) raw p := by
  obtain ⟨d', hs⟩ := ready_data d
  have hon : OnGrid (ready t) := fun v hv _ => by have := d'.even v hv; omega
  have hi : Inv (fun _ : Cnt => false) (OnGrid (ready t)) ⟨[], [], bmin⟩ [] [] :=
    { dn := { good := { slope := by simp, sorted := List.Pairwise.nil, chain := by simp, orig := by simp,
                        qsorted := by simp [QSorted], qgt := by simp }
              rin := Eqv.refl _, rout := Eqv.refl _, bal := fun _ => rfl }
      even := by simp, inx := by simp, outx := by simp
      hist := fun q _ => by simp [Hist, rays, oRays, gi] }
  have hz : ∀ q : ℚ × ℚ, q.1 < bmin → dep (ready t) q = 0 := by
    intro q hq
    unfold dep
    rw [List.filter_eq_nil_iff.2]
    · simp [rays]
    · intro v hv
      have : (bmin : ℚ) ≤ v.1.1 := by exact_mod_cast d'.ge v hv
      simp only [decide_eq_true_eq, not_le]
      linarith
  have ti : TInv (fun _ : Cnt => false) (OnGrid (ready t)) (ready t) ⟨[], [], bmin⟩ [] (ready t) [] :=
    { eq := rfl, inv := ⟨[], hi⟩, sound := by simp, comp := by
        intro p hp
        rcases hp with hp | ⟨hp, hv⟩
        · refine ⟨bmin - p.1, by linarith, (0, 0), fun q hq h => absurd (hz q ?_) h⟩
          have := hq.1.2; linarith
        · refine ⟨1, by norm_num, (0, 0), fun q hq h => absurd ?_ h⟩
          unfold dep
          rw [List.filter_eq_nil_iff.2]
          · simp [rays]
          · intro v hv'
            have h1 : (bmin : ℚ) + 1 ≤ v.1.1 := by exact_mod_cast hv v hv'
            have h2 := hq.1.2
            simp only at hp
            simp only [decide_eq_true_eq, not_le]
            linarith
      orig := trivial
      fresh := Or.inr ⟨by simp, List.Pairwise.nil, d'.ge, fun q _ h => by rw [hz q h]; rfl⟩
      rx := by simp, mono := List.Pairwise.nil }
  obtain ⟨st, raw, e, i⟩ := columns_raw rfl hon (ready t).length (ready t) [] ⟨[], [], bmin⟩ [] ti (inOK_of_closed hs d'.closed) (le_refl _)
  rw [List.nil_append] at i
  refine ⟨raw, e, i.mono, i.sound, fun p => ?_⟩
  by_cases c : p.1 ≤ st.x
  · rcases lt_or_eq_of_le c with c | c
    · exact i.comp p (Or.inl c)
    · exact i.comp p (Or.inr ⟨c, by simp⟩)
  · push Not at c
    obtain ⟨o, io⟩ := i.inv
    obtain ⟨h1, -⟩ := end_counts io d'.closed
    refine ⟨p.1 - st.x, by linarith, (0, 0), fun q hq h => absurd ?_ h⟩
    have := hq.1.1
    unfold dep
    rw [filter_le_all (f := fun v : Vert Cnt => v.1.1) io.inx (by linarith), h1]

/-! ### The state of the functor -/

/-- A property is told at the point. -/
def HasK (cs : List Call) (p : P) (b : Int) : Prop := ∃ k ∈ cs, k.2 = p ∧ b ∈ posKeys k.1.1 ++ posKeys k.1.2

theorem foldl_set (b : Int) : ∀ (ks s : List Int), b ∈ ks.foldl setInsert s ↔ b ∈ ks ∨ b ∈ s
  | [], s => by simp
  | k :: ks, s => by
    rw [List.foldl_cons, foldl_set b ks, setInsert_mem, List.mem_cons]
    tauto

theorem foldl_srt : ∀ (ks s : List Int), s.Pairwise (· < ·) → (ks.foldl setInsert s).Pairwise (· < ·)
  | [], _, h => h
  | k :: ks, s, h => foldl_srt ks _ (setInsert_srt k s h)

/-- The entries of the map: in order, and each set in order. -/
structure MapOk (m : List (Int × List Int)) : Prop where
  keys : m.Pairwise (fun a b => a.1 < b.1)
  sets : ∀ a ∈ m, a.2.Pairwise (· < ·)

theorem addY_key (y : Int) (ks : List Int) : ∀ (m : List (Int × List Int)), ∀ a ∈ addY m y ks, a.1 = y ∨ ∃ b ∈ m, b.1 = a.1
  | [], a, ha => by simp [addY] at ha; left; rw [ha]
  | b :: r, a, ha => by
    unfold addY at ha
    split_ifs at ha with h1 h2
    · rcases List.mem_cons.1 ha with rfl | ha
      · exact Or.inr ⟨a, by simp, rfl⟩
      · rcases addY_key y ks r a ha with h | ⟨c, hc, h⟩
        · exact Or.inl h
        · exact Or.inr ⟨c, by simp [hc], h⟩
    · rcases List.mem_cons.1 ha with rfl | ha
      · exact Or.inl rfl
      · exact Or.inr ⟨a, ha, rfl⟩
    · rcases List.mem_cons.1 ha with rfl | ha
      · exact Or.inr ⟨b, by simp, rfl⟩
      · exact Or.inr ⟨a, by simp [ha], rfl⟩

theorem addY_ok (y : Int) (ks : List Int) : ∀ {m : List (Int × List Int)}, MapOk m → MapOk (addY m y ks)
  | [], _ => ⟨by simp [addY], by intro a ha; simp [addY] at ha; rw [ha]; exact foldl_srt ks [] List.Pairwise.nil⟩
  | b :: r, h => by
    obtain ⟨k1, k2⟩ := List.pairwise_cons.1 h.keys
    have hr : MapOk r := ⟨k2, fun a ha => h.sets a (by simp [ha])⟩
    have ih := addY_ok y ks hr
    unfold addY
    split_ifs with h1 h2
    · refine ⟨List.pairwise_cons.2 ⟨fun a ha => ?_, ih.keys⟩, fun a ha => ?_⟩
      · rcases addY_key y ks r a ha with h | ⟨c, hc, h⟩
        · omega
        · have := k1 c hc; omega
      · rcases List.mem_cons.1 ha with rfl | ha
        · exact h.sets _ (by simp)
        · exact ih.sets a ha
    · refine ⟨List.pairwise_cons.2 ⟨fun a ha => ?_, h.keys⟩, fun a ha => ?_⟩
      · rcases List.mem_cons.1 ha with rfl | ha
        · exact h2
        · have := k1 a ha; simp only; omega
      · rcases List.mem_cons.1 ha with rfl | ha
        · exact foldl_srt ks [] List.Pairwise.nil
        · exact h.sets a ha
    · refine ⟨List.pairwise_cons.2 ⟨k1, k2⟩, fun a ha => ?_⟩
      rcases List.mem_cons.1 ha with rfl | ha
      · exact foldl_srt ks _ (h.sets b (by simp))
      · exact h.sets a (by simp [ha])

theorem addY_mem (y : Int) (ks : List Int) (z b : Int) : ∀ (m : List (Int × List Int)),
    (∃ a ∈ addY m y ks, a.1 = z ∧ b ∈ a.2) ↔ (∃ a ∈ m, a.1 = z ∧ b ∈ a.2) ∨ (z = y ∧ b ∈ ks)
  | [] => by
    simp only [addY, List.mem_singleton, exists_eq_left, List.not_mem_nil, false_and, exists_false, false_or, foldl_set, or_false]
    constructor
    · rintro ⟨rfl, h⟩; exact ⟨rfl, h⟩
    · rintro ⟨rfl, h⟩; exact ⟨rfl, h⟩
  | c :: r => by
    have ih := addY_mem y ks z b r
    unfold addY
    split_ifs with h1 h2
    · simp only [List.mem_cons, exists_eq_or_imp, ih, or_assoc]
    · simp only [List.mem_cons, exists_eq_or_imp, foldl_set, List.not_mem_nil, or_false]
      constructor
      · rintro (⟨h, h'⟩ | h)
        · exact Or.inr ⟨h.symm, h'⟩
        · exact Or.inl h
      · rintro (h | ⟨h, h'⟩)
        · exact Or.inr h
        · exact Or.inl ⟨h.symm, h'⟩
    · have e : c.1 = y := by omega
      simp only [List.mem_cons, exists_eq_or_imp, foldl_set]
      rw [e]
      constructor
      · rintro (⟨h, h' | h'⟩ | h)
        · exact Or.inr ⟨h.symm, h'⟩
        · exact Or.inl (Or.inl ⟨h, h'⟩)
        · exact Or.inl (Or.inr h)
      · rintro ((⟨h, h'⟩ | h) | ⟨h, h'⟩)
        · exact Or.inl ⟨h, Or.inr h'⟩
        · exact Or.inr h
        · exact Or.inl ⟨h.symm, Or.inl h'⟩

structure CSInv (cs : List Call) (s : CS) : Prop where
  ok : MapOk s.m
  m : ∀ z b, (∃ a ∈ s.m, a.1 = z ∧ b ∈ a.2) ↔ HasK cs (s.x, z) b
  g : ∀ i j, (i, j) ∈ s.g ↔ i ≠ j ∧ ∃ p, p.1 < s.x ∧ HasK cs p i ∧ HasK cs p j
  x : cs = [] ∨ ∃ k ∈ cs, k.2.1 = s.x
  le : ∀ k ∈ cs, k.2.1 ≤ s.x

theorem process_mem {cs : List Call} {s : CS} (h : CSInv cs s) (i j : Int) : (i, j) ∈ s.process.g ↔ i ≠ j ∧ ∃ p, HasK cs p i ∧ HasK cs p j := by
  unfold CS.process
  rw [List.mem_append, h.g, List.mem_flatMap]
  constructor
  · rintro (⟨h1, p, -, h2, h3⟩ | ⟨a, ha, hp⟩)
    · exact ⟨h1, p, h2, h3⟩
    · rw [pairs_mem _ (h.ok.sets a ha)] at hp
      exact ⟨hp.1, (s.x, a.1), (h.m a.1 i).1 ⟨a, ha, rfl, hp.2.1⟩, (h.m a.1 j).1 ⟨a, ha, rfl, hp.2.2⟩⟩
  · rintro ⟨h1, p, h2, h3⟩
    have hle : p.1 ≤ s.x := by obtain ⟨k, hk, rfl, -⟩ := h2; exact h.le k hk
    rcases lt_or_eq_of_le hle with c | c
    · exact Or.inl ⟨h1, p, c, h2, h3⟩
    · right
      have e : p = (s.x, p.2) := by rw [← c]
      rw [e] at h2 h3
      obtain ⟨a, ha, ha1, ha2⟩ := (h.m _ _).2 h2
      obtain ⟨b, hb, hb1, hb2⟩ := (h.m _ _).2 h3
      have hab : a = b := by
        by_contra hne
        have : a.1 ≠ b.1 := by
          have hp : s.m.Pairwise (fun a b => a.1 ≠ b.1) := h.ok.keys.imp (fun h => ne_of_lt h)
          haveI : Std.Symm (fun a b : Int × List Int => a.1 ≠ b.1) := ⟨fun a b h => h.symm⟩
          exact hp.forall ha hb hne
        omega
      exact ⟨a, ha, (pairs_mem _ (h.ok.sets a ha) _ _).2 ⟨h1, ha2, by rw [hab]; exact hb2⟩⟩

theorem hasK_append (cs : List Call) (c : Call) (p : P) (b : Int) : HasK (cs ++ [c]) p b ↔ HasK cs p b ∨ (c.2 = p ∧ b ∈ posKeys c.1.1 ++ posKeys c.1.2) := by
  unfold HasK
  simp only [List.mem_append, List.mem_singleton]
  constructor
  · rintro ⟨k, hk | rfl, h⟩
    · exact Or.inl ⟨k, hk, h⟩
    · exact Or.inr h
  · rintro (⟨k, hk, h⟩ | h)
    · exact ⟨k, Or.inl hk, h⟩
    · exact ⟨c, Or.inr rfl, h⟩

theorem call_inv {cs : List Call} {s : CS} (h : CSInv cs s) {c : Call} (hc : ∀ k ∈ cs, k.2.1 ≤ c.2.1) : CSInv (cs ++ [c]) (s.call c) := by
  have hle : ∀ k ∈ cs ++ [c], k.2.1 ≤ c.2.1 := by
    intro k hk
    rcases List.mem_append.1 hk with hk | hk
    · exact hc k hk
    · rw [List.mem_singleton.1 hk]
  by_cases cx : c.2.1 ≠ s.x
  · have e : s.call c = ⟨c.2.1, addY [] c.2.2 (posKeys c.1.1 ++ posKeys c.1.2), s.process.g⟩ := by
      unfold CS.call; simp only; rw [if_pos cx]; rfl
    have hlt : ∀ k ∈ cs, k.2.1 < c.2.1 := by
      intro k hk
      rcases h.x with h' | ⟨k0, hk0, h'⟩
      · rw [h'] at hk; simp at hk
      · have h1 := h.le k hk
        have h2 := hc k0 hk0
        omega
    have hno : ∀ p b, p.1 = c.2.1 → ¬ HasK cs p b := by
      rintro p b hp ⟨k, hk, rfl, -⟩
      have := hlt k hk; omega
    rw [e]
    refine { ok := addY_ok _ _ ⟨List.Pairwise.nil, by simp⟩, m := ?_, g := ?_, x := Or.inr ⟨c, by simp, rfl⟩, le := hle }
    · intro z b
      rw [addY_mem, hasK_append]
      simp only [List.not_mem_nil, false_and, exists_false, false_or]
      constructor
      · rintro ⟨rfl, hb⟩; exact Or.inr ⟨rfl, hb⟩
      · rintro (hk | ⟨hk, hb⟩)
        · exact absurd hk (hno _ _ rfl)
        · exact ⟨by rw [hk], hb⟩
    · intro i j
      simp only
      rw [process_mem h]
      constructor
      · rintro ⟨h1, p, h2, h3⟩
        refine ⟨h1, p, ?_, (hasK_append _ _ _ _).2 (Or.inl h2), (hasK_append _ _ _ _).2 (Or.inl h3)⟩
        obtain ⟨k, hk, rfl, -⟩ := h2
        exact hlt k hk
      · rintro ⟨h1, p, hp, h2, h3⟩
        refine ⟨h1, p, ((hasK_append _ _ _ _).1 h2).resolve_right ?_, ((hasK_append _ _ _ _).1 h3).resolve_right ?_⟩
        · rintro ⟨rfl, -⟩; omega
        · rintro ⟨rfl, -⟩; omega
  · have e : s.call c = ⟨c.2.1, addY s.m c.2.2 (posKeys c.1.1 ++ posKeys c.1.2), s.g⟩ := by
      unfold CS.call; simp only; rw [if_neg cx]
    push Not at cx
    rw [e]
    refine { ok := addY_ok _ _ h.ok, m := ?_, g := ?_, x := Or.inr ⟨c, by simp, rfl⟩, le := hle }
    · intro z b
      rw [addY_mem, hasK_append, h.m]
      simp only
      rw [cx]
      refine or_congr_right ⟨?_, ?_⟩
      · rintro ⟨rfl, hb⟩; exact ⟨by rw [← cx], hb⟩
      · rintro ⟨hk, hb⟩; exact ⟨by rw [hk], hb⟩
    · intro i j
      simp only
      rw [h.g, cx]
      refine and_congr_right (fun _ => exists_congr (fun p => and_congr_right (fun hp => ?_)))
      have : ∀ b, HasK (cs ++ [c]) p b ↔ HasK cs p b := by
        intro b
        rw [hasK_append]
        refine or_iff_left ?_
        rintro ⟨rfl, -⟩; omega
      rw [this, this]

theorem fold_inv : ∀ (ds cs : List Call) (s : CS), CSInv cs s → (cs ++ ds).Pairwise (fun a b => a.2.1 ≤ b.2.1) → CSInv (cs ++ ds) (ds.foldl CS.call s)
  | [], cs, s, h, _ => by rw [List.append_nil]; exact h
  | d :: ds, cs, s, h, hp => by
    have e : cs ++ d :: ds = (cs ++ [d]) ++ ds := by simp
    rw [e] at hp ⊢
    exact fold_inv ds _ _ (call_inv h (fun k hk => (List.pairwise_append.1 (List.pairwise_append.1 hp).1).2.2 k hk d (by simp))) hp

theorem touch_eq {bmin bmax : Int} {t : TSD} {raw : List Call} (e : perform rawFn bmin t = .ok raw) (hm : raw.Pairwise (fun a b => a.2.1 ≤ b.2.1)) :
    ∃ G, touch bmin bmax t = .ok G ∧ ∀ i j, (i, j) ∈ G ↔ i ≠ j ∧ ∃ p, HasK raw p i ∧ HasK raw p j := by
  refine ⟨_, by unfold touch; rw [e], fun i j => ?_⟩
  have h0 : CSInv [] ⟨bmax, [], []⟩ :=
    { ok := ⟨List.Pairwise.nil, by simp⟩, m := fun z b => by simp [HasK], g := fun i j => by simp [HasK], x := Or.inl rfl, le := by simp }
  have := fold_inv raw [] _ h0 (by simpa using hm)
  rw [List.nil_append] at this
  exact process_mem this i j

theorem posKeys_iff (c : Cnt) (b : Int) : b ∈ posKeys c ↔ 0 < c.get b := by
  unfold posKeys Cnt.get
  constructor
  · intro h
    obtain ⟨a, ha, rfl⟩ := List.mem_map.1 h
    obtain ⟨h1, h2⟩ := List.mem_filter.1 ha
    rw [Arb.get_mem c.ok.srt h1]
    simpa using h2
  · intro h
    by_contra hn
    by_cases hk : ∃ a ∈ c.counts, a.1 = b
    · obtain ⟨a, ha, rfl⟩ := hk
      rw [Arb.get_mem c.ok.srt ha] at h
      exact hn (List.mem_map.2 ⟨a, List.mem_filter.2 ⟨ha, by simpa using h⟩, rfl⟩)
    · push Not at hk
      rw [Arb.get_not_mem hk] at h
      omega

/-! ### The nodes -/

theorem nodes_mem {S : List S45} {s : S45} {k : Int} : (s, k) ∈ nodes S ↔ ∃ i : Nat, k = i ∧ S[i]? = some s := by
  unfold nodes
  rw [List.mem_map]
  constructor
  · rintro ⟨⟨u, i⟩, h, e⟩
    rw [List.mem_zipIdx_iff_getElem?] at h
    simp only [Prod.mk.injEq] at e
    obtain ⟨rfl, rfl⟩ := e
    exact ⟨i, rfl, h⟩
  · rintro ⟨i, rfl, h⟩
    exact ⟨(s, i), List.mem_zipIdx_iff_getElem?.2 h, rfl⟩

theorem depth_pos {bmin : Int} {S : List S45} {t : TSD} (d : Data bmin (nodes S) t) (q : ℚ × ℚ) (k : Int) :
    0 < (dep t q).get k ↔ ∃ i : Nat, k = i ∧ ∃ s, S[i]? = some s ∧ Covers s (half q) := by
  have e : dep t q = Spec.Deg45.depth t q := (depth_rays t q).symm
  have hn : 0 ≤ ((nodes S).map (fun a => if a.2 = k ∧ 0 < Spec.Deg45.depth a.1.data (half q) then (1 : Int) else 0)).sum := by
    apply List.sum_nonneg
    intro x hx
    obtain ⟨a, _, rfl⟩ := List.mem_map.1 hx
    split_ifs <;> norm_num
  rw [e, d.depth, lt_iff_le_and_ne]
  have hs := sum_ind_pos (fun a : S45 × Int => a.2 = k ∧ 0 < Spec.Deg45.depth a.1.data (half q)) (nodes S)
  constructor
  · rintro ⟨-, h⟩
    obtain ⟨⟨s, k'⟩, ha, h1, h2⟩ := hs.1 (Ne.symm h)
    obtain ⟨i, rfl, h3⟩ := nodes_mem.1 ha
    exact ⟨i, h1.symm, s, h3, h2⟩
  · rintro ⟨i, rfl, s, h1, h2⟩
    exact ⟨hn, Ne.symm (hs.2 ⟨(s, i), nodes_mem.2 ⟨i, rfl, h1⟩, rfl, h2⟩)⟩

end Verif.Merge45
