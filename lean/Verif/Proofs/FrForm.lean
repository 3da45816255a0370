import Verif.Proofs.FrPoint
import Verif.Proofs.F45Form
import Verif.Proofs.FormCover
/-!
# Polygons without holes: the columns and the whole sweep, beside the formation with holes
-/
namespace Verif.Fr
open Verif.ArbForm Verif.F45 Verif.Arb
open Verif.Deg45 (V45 Quad)
open Verif.Set45 (VC)

/-- The open ends may be told by other keys of the same lines. -/
theorem Ends.of {H' H : Heap} {φ : Nat → Nat} {K : List (Chain × Chain)} {M M1 : List (V45 × Nat)} (e : Ends H' H φ K M) (hp : (M1.map Prod.snd).Perm (M.map Prod.snd))
    (h : ∀ a ∈ M1, ∃ b ∈ M, b.2 = a.2 ∧ b.1.count = a.1.count ∧ Rise a.1.rise ∧ ∀ q, On b.1 q → On a.1 q) : Ends H' H φ K M1 where
  nd := hp.nodup_iff.2 e.nd
  mem a ha := by
    obtain ⟨b, hb, h1, h2, -⟩ := h a ha
    have := e.mem b hb
    rwa [h1, h2] at this
  rise a ha := by obtain ⟨b, hb, h1, h2, h3, -⟩ := h a ha; exact h3
  on a ha q hq := by
    obtain ⟨b, hb, h1, h2, h3, h4⟩ := h a ha
    exact h4 q (e.on b hb q (by rw [h1]; exact hq))

theorem Flt.of {H' H : Heap} {K : List (Chain × Chain)} {M M1 : List (V45 × Nat)} {x : Int} {h : Nat} (f : Flt x H' H K M h) (hp : (M1.map Prod.snd).Perm (M.map Prod.snd)) :
    Flt x H' H K M1 h := by
  obtain ⟨k, hk, h1, h2, h3⟩ := f
  refine ⟨k, hk, h1, h2, fun a ha => ?_⟩
  obtain ⟨b, hb, e⟩ := List.mem_map.1 (hp.mem_iff.1 (List.mem_map.2 ⟨a, ha, rfl⟩))
  rw [← e]
  exact h3 b hb

/-! ### The slots -/

/-- A slot of the other formation. -/
def cm (φ : Nat → Nat) (c : CSlot) : CSlot := (c.1, c.2.map φ)

theorem slotOf_mt (φ : Nat → Nat) (L : List (V45 × Nat)) (r : Int) : Form45.slotOf (L.map (mt φ)) r = cm φ (Form45.slotOf L r) := by
  unfold Form45.slotOf
  rw [List.filter_map, List.getLast?_map]
  have : (fun a : V45 × Nat => decide (a.1.rise = r)) ∘ mt φ = fun a => decide (a.1.rise = r) := rfl
  rw [this]
  cases (L.filter (fun a => decide (a.1.rise = r))).getLast? <;> rfl

theorem vertSlot_cm {φ : Nat → Nat} {s' s : Form45.ES} (h1 : s'.vt = s.vt.map φ) (h2 : s'.vc = s.vc) : Form45.vertSlot s' = cm φ (Form45.vertSlot s) := by
  unfold Form45.vertSlot
  rw [h1, h2]
  cases s.vt <;> rfl

theorem nzs_cm (φ : Nat → Nat) (cs : List CSlot) : nzs (cs.map (cm φ)) = (nzs cs).map (cm φ) := by
  unfold nzs
  rw [List.filter_map]
  rfl

theorem pend_cm (φ : Nat → Nat) (cs : List CSlot) : pend (cs.map (cm φ)) = (pend cs).map φ := by
  unfold pend
  rw [List.getLast?_map]
  rcases cs.getLast? with _ | c
  · rfl
  · show (if c.1 = 0 then c.2.map φ else none) = Option.map φ (if c.1 = 0 then c.2 else none)
    by_cases h : c.1 = 0
    · rw [if_pos h, if_pos h]
    · rw [if_neg h, if_neg h]; rfl

/-! ### The states in a column -/

/-- The ends of the edges of the scanline that are not yet reached. -/
def liv (sd : List (V × Nat)) (dn : Pt → Bool) : List (V45 × Nat) := (sd.filter (fun a => !dn a.1.1.2)).map phi

/-- The end of a vertical edge that is carried upwards. -/
def upE (x : Int) (s : Form45.ES) : List (V45 × Nat) := match s.vt with | some t => if s.vc = 0 then [] else [(⟨(x, 0), 2, -s.vc⟩, t)] | none => []

structure FI (x : Int) (sd : List (V × Nat)) (dn : Pt → Bool) (τ : V × Nat → Nat) (φ : Nat → Nat) (K : List (Chain × Chain)) (sd' : List (V45 × Nat)) (s' s : Form45.ES) : Prop where
  evs : s'.evs = s.evs
  el : sd' = sd.map (fun a => ((phi a).1, τ a))
  tau : ∀ a ∈ sd, dn a.1.1.2 = false → τ a = φ a.2
  sim : Sim s'.H s.H φ K
  ends : Ends s'.H s.H φ K (liv sd dn ++ (upE x s ++ s.els))
  els : s'.els = s.els.map (mt φ)
  vt : s'.vt = s.vt.map φ
  vc : s'.vc = s.vc
  rm : s'.rm = s.rm
  out : List.Forall₂ FP s'.out s.out
  fl : ∀ h, s.vt = some h → s.vc = 0 → Flt x s'.H s.H K (liv sd dn ++ (upE x s ++ s.els)) h

theorem holeUp_fr {x : Int} {sd A C : List (V × Nat)} {dn : Pt → Bool} {τ : V × Nat → Nat} {φ : Nat → Nat} {K : List (Chain × Chain)} {sd' : List (V45 × Nat)} {s' s t : Form45.ES}
    (f : FI x sd dn τ φ K sd' s' s) (hsp : sd = A ++ C) (hnd : sd.Nodup) (hup : ∀ h, s.vt = some h → s.vc = 0 → ∃ a C', C = a :: C' ∧ dn a.1.1.2 = false ∧ a.1.2 = -1 ∧ (phi a).1.rise ≠ 2)
    (ht : Form45.holeUp x (sd.map phi) A.length s = some t) :
    ∃ τ1 φ1 K1 sd1 t', Frac45.holeUp x sd' A.length s' = some (sd1, t') ∧ FI x sd dn τ1 φ1 K1 sd1 t' t := by
  unfold Form45.holeUp at ht
  unfold Frac45.holeUp
  rw [f.vt]
  rcases hv : s.vt with _ | h
  · rw [hv] at ht
    cases ht
    exact ⟨τ, φ, K, sd', s', rfl, f⟩
  · rw [hv] at ht
    dsimp only [Option.map_some] at ht ⊢
    rw [f.vc]
    by_cases c : s.vc ≠ 0
    · rw [if_pos c] at ht ⊢
      cases ht
      exact ⟨τ, φ, K, sd', s', rfl, f⟩
    · rw [if_neg c] at ht ⊢
      have c0 : s.vc = 0 := by simpa using c
      obtain ⟨a, C', rfl, hd, ha, hr⟩ := hup h hv c0
      have hsa : a ∈ sd := by rw [hsp]; simp
      have hi : sd[A.length]? = some a := by rw [hsp]; simp
      have hi1 : (sd.map phi)[A.length]? = some (phi a) := by rw [List.getElem?_map, hi]; rfl
      have hi2 : sd'[A.length]? = some ((phi a).1, φ a.2) := by rw [f.el, List.getElem?_map, hi, ← f.tau a hsa hd]; rfl
      rw [hi1] at ht
      rw [hi2, f.evs]
      have up : ∃ τ1 φ1 K1 sd1 t', some (sd'.set A.length ((phi a).1, ((Form45.push s'.H (s'.H.tail (φ h)).other (x, Form45.eval (phi a).1 x)).tail (φ h)).other),
          { s' with evs := s.evs, vc := s.vc, H := Form45.join (Form45.push (Form45.push s'.H (s'.H.tail (φ h)).other (x, Form45.eval (phi a).1 x)) (φ a.2) (x, Form45.eval (phi a).1 x)) (φ h) (φ a.2), vt := none }) =
            some (sd1, t') ∧ FI x sd dn τ1 φ1 K1 sd1 t' { s with H := s.H.addHole (phi a).2 h, vt := none } := by
        have hm : phi a ∈ liv sd dn ++ (upE x s ++ s.els) := List.mem_append_left _ (List.mem_map.2 ⟨a, List.mem_filter.2 ⟨hsa, by rw [hd]; rfl⟩, rfl⟩)
        obtain ⟨M, hM⟩ := perm1 hm
        have e1 := f.ends.perm hM
        have hu : upE x s = [] := by unfold upE; rw [hv]; exact if_pos c0
        obtain ⟨ψ, K1, p1, p2, p3, p4, p5⟩ := Ends.slitUp (m := (x, Form45.eval (phi a).1 x)) f.sim e1 ((f.fl h hv c0).of (hM.symm.map _)) ha (by unfold On; rw [if_neg hr])
        have hne : ∀ b ∈ M, b.2 ≠ a.2 := e1.head.1
        refine ⟨fun b => if b = a then ψ a.2 else τ b, ψ, K1, _, _, rfl, ?_⟩
        have hsplit : ∀ b, b ∈ liv sd dn ++ (upE x s ++ s.els) → b = phi a ∨ b ∈ M := fun b hb => List.mem_cons.1 (hM.mem_iff.1 hb)
        have hu2 : upE x { s with H := s.H.addHole (phi a).2 h, vt := none } = [] := rfl
        have hel : ∀ b ∈ s.els, b.2 ≠ a.2 := by
          -- the end is only once in the list
          intro b hb he
          have nd := f.ends.nd
          rw [List.map_append, List.nodup_append] at nd
          exact nd.2.2 _ (List.mem_map.2 ⟨phi a, List.mem_map.2 ⟨a, List.mem_filter.2 ⟨hsa, by rw [hd]; rfl⟩, rfl⟩, rfl⟩) _ (List.mem_map.2 ⟨b, by simp [hb], rfl⟩) he.symm
        have hli : ∀ b ∈ sd, dn b.1.1.2 = false → b ≠ a → b.2 ≠ a.2 := by
          intro b hb hbd hba he
          have nd := f.ends.nd
          rw [List.map_append, List.nodup_append] at nd
          have nd := nd.1
          unfold liv at nd
          rw [List.map_map] at nd
          have := List.inj_on_of_nodup_map nd (List.mem_filter.2 ⟨hb, by rw [hbd]; rfl⟩) (List.mem_filter.2 ⟨hsa, by rw [hd]; rfl⟩) he
          exact hba this
        refine ⟨rfl, ?_, ?_, p4, ?_, ?_, rfl, rfl, f.rm, f.out, by simp⟩
        · rw [p3, f.el, ← p2]
          have hA : a ∉ A ∧ a ∉ C' := by
            rw [hsp, List.nodup_append, List.nodup_cons] at hnd
            exact ⟨fun h => hnd.2.2 a h a List.mem_cons_self rfl, hnd.2.1.1⟩
          rw [hsp, List.map_append, List.map_append, List.set_append_right _ _ (by simp)]
          congr 1
          · exact List.map_congr_left (fun b hb => by rw [if_neg (fun g : b = a => hA.1 (g ▸ hb))])
          · simp only [List.length_map, Nat.sub_self, List.map_cons, List.set_cons_zero, if_true]
            congr 1
            exact List.map_congr_left (fun b hb => by rw [if_neg (fun g : b = a => hA.2 (g ▸ hb))])
        · intro b hb hbd
          by_cases g : b = a
          · rw [if_pos g, g]
          · rw [if_neg g, f.tau b hb hbd, p1 _ (hli b hb hbd g)]
        · rw [hu2]
          have := p5.perm hM.symm
          rwa [hu] at this
        · dsimp only
          rw [f.els]
          exact (mt_map (fun b hb => p1 _ (hel b hb))).symm
      rcases hev : s.evs with _ | ⟨ev, r⟩
      · rw [hev] at ht
        simp only [Option.bind_eq_bind, Option.bind_some, if_true] at ht ⊢
        rw [← Option.some_inj.1 ht]
        simp only [hev] at up
        exact up
      · rw [hev] at ht
        simp only [Option.bind_eq_bind, Option.bind_some, Option.map_some, if_true] at ht ⊢
        by_cases c1 : ev.1.1 ≠ x
        · rw [if_pos c1] at ht ⊢
          rw [← Option.some_inj.1 ht]
          simp only [hev] at up
          exact up
        · rw [if_neg c1] at ht ⊢
          by_cases c2 : decide (ev.1.2 ≥ Form45.eval (phi a).1 x) = true
          · rw [if_pos c2] at ht ⊢
            rw [← Option.some_inj.1 ht]
            simp only [hev] at up
            exact up
          · rw [if_neg c2] at ht ⊢
            rw [← Option.some_inj.1 ht]
            exact ⟨τ, φ, K, sd', s', rfl, f⟩

/-- The edges of the scanline that end at the point. -/
theorem here_block {D : List V} (c : Clean D) {x : Int} {sd : List (V × Nat)} (hc : Col D x sd) {dn : Pt → Bool} {s : ES} {W : Option (V × Nat)}
    {p : Pt} {inc : List (Pt × Int)} {A B C : List (V × Nat)} {L : List V} {Wi : Option V} {Le : List V} (hh : Here D x sd dn s W p inc A B C L Wi Le) :
    (sd.filter (fun a => !dn a.1.1.2)).Perm (B ++ sd.filter (fun a => !(dn a.1.1.2 || a.1.1.2 == p))) := by
  have hy : ∀ a ∈ sd, a.1.1.2 = p → Arb.Y a.1.1 p.1 = p.2 := fun a ha he =>
    (end_at c.good hh.vtx (Has.evs (hc.mem ha).1) (by rw [hh.px]; exact (hc.mem ha).2)).2 he
  have hA : ∀ a ∈ A, (a.1.1.2 == p) = false := by
    intro a ha
    rw [beq_eq_false_iff_ne]
    intro he
    have := hh.below a ha
    rw [hy a (by rw [hh.split]; simp [ha]) he] at this
    exact _root_.lt_irrefl _ this
  have hC : ∀ a ∈ C, (a.1.1.2 == p) = false := by
    intro a ha
    rw [beq_eq_false_iff_ne]
    intro he
    have := hh.above a ha
    rw [hy a (by rw [hh.split]; simp [ha]) he] at this
    exact _root_.lt_irrefl _ this
  rw [hh.split, List.filter_append, List.filter_append, List.filter_append, List.filter_append,
    List.filter_eq_self (l := B).2 (by intro a ha; rw [hh.at_ a ha, hh.ndn]; rfl), List.filter_eq_nil_iff (l := B).2 (by intro a ha; rw [hh.at_ a ha]; simp),
    List.filter_congr (l := A) (q := fun a => !dn a.1.1.2) (p := fun a => !(dn a.1.1.2 || a.1.1.2 == p)) (by intro a ha; rw [hA a ha, Bool.or_false]),
    List.filter_congr (l := C) (q := fun a => !dn a.1.1.2) (p := fun a => !(dn a.1.1.2 || a.1.1.2 == p)) (by intro a ha; rw [hC a ha, Bool.or_false]), List.nil_append]
  rw [← List.append_assoc, ← List.append_assoc]
  exact List.Perm.append_right _ List.perm_append_comm

theorem onePoint_fr {E : List VC} {D : List V} (d : Der E D) (c : Clean D) {x : Int} {sd : List (V × Nat)} (hc : Col D x sd) {dn : Pt → Bool} {s : ES} {F : Option Nat}
    {W : Option (V × Nat)} (m : MidC D x sd dn s F W) (st : St D x sd dn s F W) {ev : V} {r : List V} (hev : s.evs = ev :: r) (hx : ev.1.1.1 = x)
    {s0 : Form45.ES} (h : ER E sd s0 s) (hcol : Colors (fun a : V × Nat => a.1.2) 0 sd.reverse 0) (hnd : sd.Nodup) {τ : V × Nat → Nat} {φ : Nat → Nat} {K : List (Chain × Chain)}
    {sd' : List (V45 × Nat)} {s' : Form45.ES} (f : FI x sd dn τ φ K sd' s' s0) {t0 : Form45.ES} (ht0 : Form45.onePoint x (sd.map phi) s0 = some t0) :
    ∃ τ1 φ1 K1 sd1 t', Frac45.onePoint x sd' s' = some (sd1, t') ∧ FI x sd (fun q => dn q || q == ev.1.1) τ1 φ1 K1 sd1 t' t0 := by
  have hE : Events D dn (ev :: r) := hev ▸ m.ev
  obtain ⟨A, B, C, L, Wi, Le, hh, sp, N, F', e1, ha⟩ := here c hc m st hev hx rfl
  obtain ⟨v, hvE, hvp, htd⟩ := todo_cons d hE
  have htd' : s0.evs = v :: todo E ((ev :: r).dropWhile (fun e => decide (e.1.1 = ev.1.1))) := by rw [h.evs, hev, htd]
  have hsrt : (todo E (ev :: r)).Pairwise (fun v w => plt v.1 w.1) := d.srt.sublist List.filter_sublist
  rw [htd, List.pairwise_cons] at hsrt
  have htw := tw_append (q := fun e : VC => decide (e.1 = ev.1.1)) (A := [v]) (B := todo E ((ev :: r).dropWhile (fun e => decide (e.1.1 = ev.1.1)))) (by
    intro a ha
    rw [List.mem_singleton.1 ha]
    simpa using hvp) (by
    intro w hw
    have := hsrt.1 w hw
    rw [hvp] at this
    simp only [decide_eq_false_iff_not]
    intro hc
    rw [hc] at this
    unfold plt at this
    omega)
  have hq : Form45.total [v] = v.2 := by
    unfold Form45.total
    simp only [List.foldl_cons, List.foldl_nil, Quad.add]
    simp
  have e2 : processPoint ev.1.1 (isort lessInc B ++ carried s.vt s.vc ev.1.1) _ s.H s.out s.els = some sp := e1
  have hfrom : isort lessInc B ++ carried s.vt s.vc ev.1.1 = (isort lessInc B ++ W.toList) ++ (afloat W s.vt s.vc ev.1.1).toList := by
    rw [List.append_assoc]
    congr 1
    rcases hW : W with _ | a
    · cases s.vt <;> rfl
    · obtain ⟨g1, g2⟩ := hh.wcar a hW
      rw [g1, g2]
      unfold carried
      dsimp only
      rw [neg_neg, ← hh.wtop a hW]
      rfl
  rw [hfrom] at e2
  obtain ⟨inc, hinc⟩ : ∃ inc, inc = turnLast ev.1.1.1 ((isort (lessCount ev.1.1) ((s.evs.takeWhile (fun e => decide (e.1.1 = ev.1.1))).map (fun e => (e.1.2, e.2)))).filter
      (fun a => Contains.lessPoint ev.1.1 a.1)) := ⟨_, rfl⟩
  rw [← hinc] at hh e2 ha
  have hF : ∀ f, afloat W s.vt s.vc ev.1.1 = some f → isort lessInc B ++ W.toList = [] ∧ f.1.2 = 0 ∧ isVertical f.1.1 = true ∧ tt D ev.1.1 = 1 ∧ inc ≠ [] := by
    intro f hf
    rcases hW : W with _ | a
    · rcases hs : s.vt with _ | g
      · rw [hW, hs] at hf; cases hf
      · rw [hW, hs] at hf
        obtain ⟨k1, k2⟩ := hh.wno g hW hs
        obtain ⟨k3, k4⟩ := hh.flt hW (by rw [hs]; simp)
        have : f = (((s.vc.1, ev.1.1), -s.vc.2), g) := (Option.some_inj.1 hf).symm
        rw [this]
        refine ⟨by rw [k3]; rfl, by dsimp only; rw [k1]; rfl, by unfold isVertical; dsimp only; rw [k2, hx]; simp, ?_, k4⟩
        rcases st with ⟨-, -, h3⟩ | ⟨a, h1, -⟩ | ⟨h, p0, h1, h2, h3, h4, h5, ev', r', h6, h7, h8, h9⟩
        · rw [hs] at h3; cases h3
        · rw [hW] at h1; cases h1
        · rw [hev] at h6
          obtain ⟨rfl, rfl⟩ := List.cons.inj h6
          exact h9
    · rw [hW] at hf
      unfold afloat at hf
      cases hf
  obtain ⟨z1, z2⟩ := slots_sim d c hc hh h.vt h.vc hvE hvp
  have hpend : pend [cAt s0 (B.map phi) (-1), cAt s0 (B.map phi) 0, cAt s0 (B.map phi) 1, cAt s0 (B.map phi) 2] = (afloat W s.vt s.vc ev.1.1).map Prod.snd := by
    unfold pend
    show (if (Form45.vertSlot s0).1 = 0 then (Form45.vertSlot s0).2 else none) = _
    unfold Form45.vertSlot
    rw [h.vt, h.vc]
    rcases hW : W with _ | a
    · rcases hs : s.vt with _ | g
      · rfl
      · dsimp only
        rw [(hh.wno g hW hs).1, if_pos (by rfl)]
        rfl
    · obtain ⟨g1, g2⟩ := hh.wcar a hW
      rw [g1, g2]
      dsimp only
      have := Colors.ne hh.fcol a (by rw [hW]; simp)
      rw [if_neg (by simpa using this)]
      rfl
  obtain ⟨sp', q1, q2⟩ := point_sim hh.fcol hh.icol hF hh.nlt hh.ol e2 (cs := [cAt s0 (B.map phi) (-1), cAt s0 (B.map phi) 0, cAt s0 (B.map phi) 1, cAt s0 (B.map phi) 2])
    (is := [iAt v.2 s0 (B.map phi) (-1), iAt v.2 s0 (B.map phi) 0, iAt v.2 s0 (B.map phi) 1, iAt v.2 s0 (B.map phi) 2]) rfl rfl z1 z2 hpend h.H h.out h.els
  obtain ⟨l1, l2⟩ := look_sim d c hc hh
  have hp : ((x, v.1.2) : Pt) = ev.1.1 := by rw [hvp, ← hx]
  have hv2 : v.1.2 = ev.1.1.2 := by rw [hvp]
  have htw' : (v :: todo E ((ev :: r).dropWhile (fun e => decide (e.1.1 = ev.1.1)))).takeWhile (fun e => decide (e.1 = ev.1.1)) = [v] := htw.1
  have htw2 : (v :: todo E ((ev :: r).dropWhile (fun e => decide (e.1.1 = ev.1.1)))).dropWhile (fun e => decide (e.1 = ev.1.1)) =
    todo E ((ev :: r).dropWhile (fun e => decide (e.1.1 = ev.1.1))) := htw.2
  have hone' : Form45.onePoint x (sd.map phi) s0 = Form45.holeUp x (sd.map phi) (A.length + B.length)
      ⟨todo E ((ev :: r).dropWhile (fun e => decide (e.1.1 = ev.1.1))), sp'.H, sp'.out, sp'.els, sp'.ret, sp'.rc, s0.rm ++ (List.range B.length).map (· + A.length)⟩ := by
    unfold Form45.onePoint
    rw [htd']
    simp only [hv2] at hp ⊢
    simp only [hp, l1, l2]
    rw [htw', htw2, hq, List.length_map]
    exact congrArg (fun o : Option Form45.PS => o.bind (fun q => Form45.holeUp x (sd.map phi) (A.length + B.length)
      ⟨todo E ((ev :: r).dropWhile (fun e => decide (e.1.1 = ev.1.1))), q.H, q.out, q.els, q.ret, q.rc, s0.rm ++ (List.range B.length).map (· + A.length)⟩)) q1
  rw [hone'] at ht0
  -- the other formation looks at the same places
  have hBl : ∀ a ∈ B, τ a = φ a.2 := fun a ha => f.tau a (by rw [hh.split]; simp [ha]) (by rw [hh.at_ a ha]; exact hh.ndn)
  have hBm : B.map (fun a => ((phi a).1, τ a)) = (B.map phi).map (mt φ) := by
    rw [List.map_map]
    exact List.map_congr_left (fun a ha => by rw [hBl a ha]; rfl)
  have l1' : (sd'.takeWhile (fun a => Form45.less x true a.1 ⟨ev.1.1, 1, 0⟩)).length = A.length := by
    rw [List.takeWhile_map, List.length_map] at l1
    rw [f.el, List.takeWhile_map, List.length_map]
    exact l1
  have l2' : (sd'.drop A.length).takeWhile (fun a => decide (Form45.eval a.1 x = ev.1.1.2)) = (B.map phi).map (mt φ) := by
    rw [← List.map_drop, List.takeWhile_map] at l2
    rw [f.el, ← List.map_drop, List.takeWhile_map, ← hBm]
    congr 1
    have l3 := congrArg List.length l2
    rw [List.length_map, List.length_map] at l3
    have hd : sd.drop A.length = B ++ C := by rw [hh.split]; simp
    rw [hd] at l3 ⊢
    have := List.prefix_iff_eq_take.1 (List.takeWhile_prefix (l := B ++ C) ((fun a : V45 × Nat => decide (Form45.eval a.1 x = ev.1.1.2)) ∘ phi))
    rw [l3] at this
    refine this.trans ?_
    simp
  have cs' : ∀ r', cAt s' ((B.map phi).map (mt φ)) r' = cm φ (cAt s0 (B.map phi) r') := by
    intro r'
    unfold cAt
    by_cases g : r' = 2
    · rw [if_pos g, if_pos g, vertSlot_cm f.vt f.vc]
    · rw [if_neg g, if_neg g, slotOf_mt]
  have is' : ∀ r', iAt v.2 s' ((B.map phi).map (mt φ)) r' = iAt v.2 s0 (B.map phi) r' := by
    intro r'
    unfold iAt
    rw [cs']
    rfl
  -- what is carried
  have hu : (upE x s0).map Prod.snd = W.toList.map Prod.snd ∧ ∀ a, W = some a → ∃ b ∈ upE x s0, b.2 = (phi a).2 ∧ b.1.count = (phi a).1.count ∧ Rise (phi a).1.rise ∧
      (∀ q, On b.1 q → On (phi a).1 q) ∧ On (phi a).1 ev.1.1 := by
    unfold upE
    rw [h.vt, h.vc]
    rcases hW : W with _ | a
    · rcases hs : s.vt with _ | g
      · exact ⟨rfl, by simp⟩
      · dsimp only
        rw [(hh.wno g hW hs).1, if_pos rfl]
        exact ⟨rfl, by simp⟩
    · obtain ⟨g1, g2⟩ := hh.wcar a hW
      rw [g1, g2]
      have hne : a.1.2 ≠ 0 := Colors.ne hh.fcol a (by rw [hW]; simp)
      dsimp only
      rw [if_neg (by simpa using hne)]
      refine ⟨rfl, ?_⟩
      rintro b hb
      obtain rfl := Option.some_inj.1 hb
      obtain ⟨e, -, k1, k2, k3⟩ := hh.bot (by rw [hW]; simp)
      rw [hW, Option.map_some, Option.some_inj] at k3
      have k4 : a.1.1.1.1 = x := by rw [k3]; dsimp only; rw [k1, k2]; exact hx
      have k5 : (phi a).1.rise = 2 := rho_two.2 (by rw [k3]; exact k1.symm)
      refine ⟨_, List.mem_singleton.2 rfl, rfl, by simp [phi], Or.inr (Or.inr (Or.inr k5)), ?_, ?_⟩
      · intro q hq
        unfold On at hq ⊢
        rw [if_pos rfl] at hq
        rw [if_pos k5, hq]
        exact k4.symm
      · unfold On
        rw [if_pos k5]
        exact hx.trans k4.symm
  have hblk := here_block c hc hh
  have hBp := isort_perm lessInc B
  have hperm : ((((isort lessInc B ++ W.toList).map phi ++ liv sd (fun q => dn q || q == ev.1.1)) ++ ([] ++ s0.els)).map Prod.snd).Perm
      ((liv sd dn ++ (upE x s0 ++ s0.els)).map Prod.snd) := by
    have p1 : ((isort lessInc B).map phi ++ liv sd (fun q => dn q || q == ev.1.1)).Perm (liv sd dn) := by
      have := (hBp.append_right _).trans hblk.symm
      have := this.map phi
      rwa [List.map_append] at this
    have hw : ((W.toList.map phi).map Prod.snd) = (upE x s0).map Prod.snd := by rw [hu.1, List.map_map]; rfl
    rw [List.map_append (f := phi), List.nil_append]
    simp only [List.map_append (f := Prod.snd), ← List.append_assoc]
    rw [hw]
    refine List.Perm.append_right _ ?_
    refine List.Perm.trans ?_ ((p1.map Prod.snd).append_right _)
    simp only [List.map_append (f := Prod.snd), List.append_assoc]
    exact List.Perm.append_left _ List.perm_append_comm
  have hself : ∀ a ∈ liv sd dn ++ (upE x s0 ++ s0.els), ∃ b ∈ liv sd dn ++ (upE x s0 ++ s0.els), b.2 = a.2 ∧ b.1.count = a.1.count ∧ Rise a.1.rise ∧ ∀ q, On b.1 q → On a.1 q :=
    fun a ha => ⟨a, ha, rfl, rfl, f.ends.rise a ha, fun _ h => h⟩
  have hsub : ∀ a ∈ liv sd (fun q => dn q || q == ev.1.1), a ∈ liv sd dn := by
    intro a ha
    obtain ⟨b, hb, rfl⟩ := List.mem_map.1 ha
    exact List.mem_map.2 ⟨b, hblk.mem_iff.2 (List.mem_append_right _ hb), rfl⟩
  have hends : Ends s'.H s0.H φ K (((isort lessInc B ++ W.toList).map phi ++ liv sd (fun q => dn q || q == ev.1.1)) ++ ([] ++ s0.els)) := by
    refine f.ends.of hperm ?_
    intro a ha
    rcases List.mem_append.1 ha with g | g
    · rcases List.mem_append.1 g with g | g
      · obtain ⟨b, hb, rfl⟩ := List.mem_map.1 g
        rcases List.mem_append.1 hb with k | k
        · exact hself _ (List.mem_append_left _ (List.mem_map.2 ⟨b, hblk.mem_iff.2 (List.mem_append_left _ (hBp.mem_iff.1 k)), rfl⟩))
        · obtain ⟨b', k1, k2, k3, k4, k5, -⟩ := hu.2 b (by simpa using k)
          exact ⟨b', List.mem_append_right _ (List.mem_append_left _ k1), k2, k3, k4, k5⟩
      · exact hself _ (List.mem_append_left _ (hsub a g))
    · exact hself _ (List.mem_append_right _ (List.mem_append_right _ g))
  have hpf : ∀ g, (afloat W s.vt s.vc ev.1.1).map Prod.snd = some g → s0.vt = some g ∧ s0.vc = 0 := by
    intro g hg
    obtain ⟨a, ha, rfl⟩ := Option.map_eq_some_iff.1 hg
    rcases hW : W with _ | w
    · rcases hs : s.vt with _ | k
      · rw [hW, hs] at ha; cases ha
      · rw [hW, hs] at ha
        have := (Option.some_inj.1 ha).symm
        rw [h.vt, h.vc, hs, this]
        exact ⟨rfl, (hh.wno k hW hs).1⟩
    · rw [hW] at ha
      unfold afloat at ha
      cases ha
  have j : J ev.1.1 ((afloat W s.vt s.vc ev.1.1).map Prod.snd) φ K ⟨s'.H, s'.out, s'.els, none, 0⟩ ⟨s0.H, s0.out, s0.els, none, 0⟩
      ((isort lessInc B ++ W.toList).map phi ++ liv sd (fun q => dn q || q == ev.1.1)) :=
    ⟨f.sim, hends, f.els, rfl, rfl, f.out, by simp, fun _ => rfl, fun g hg => by
      obtain ⟨k1, k2⟩ := hpf g hg
      have := (f.fl g k1 k2).of hperm
      rw [hx]
      exact this⟩
  have hGc : Colors (fun a : V45 × Nat => a.1.count) (tt D ev.1.1) ((isort lessInc B ++ W.toList).map phi) (bb D ev.1.1) := (Colors.map phi).2 hh.fcol
  have hIc : Colors (fun a : Int × Int => a.1) (tt D ev.1.1) (ren (rho ev.1.1) (inc.map islot)).reverse (bb D ev.1.1) := by
    unfold ren
    rw [← List.map_reverse, ← List.map_reverse]
    exact (Colors.map _).2 ((Colors.map islot).2 hh.icol)
  have hRi : ∀ a ∈ ren (rho ev.1.1) (inc.map islot), Rise a.2 := by
    intro a ha
    obtain ⟨b, -, rfl⟩ := List.mem_map.1 ha
    exact rho_cases _ _
  have hOn : ∀ a ∈ (isort lessInc B ++ W.toList).map phi, On a.1 ev.1.1 := by
    intro a ha
    obtain ⟨b, hb, rfl⟩ := List.mem_map.1 ha
    rcases List.mem_append.1 hb with k | k
    · have k1 := hBp.mem_iff.1 k
      have k2 : b ∈ sd := by rw [hh.split]; simp [k1]
      have k3 : (phi b).1.rise ≠ 2 := by
        have := rho_nv (hc.mem k2).2.nv
        show rho _ _ ≠ 2
        omega
      have k4 : phi b ∈ B.map phi := List.mem_map.2 ⟨b, k1, rfl⟩
      rw [← l2] at k4
      have k5 := List.mem_takeWhile_imp k4
      unfold On
      rw [if_neg k3, hx]
      exact (of_decide_eq_true k5).symm
    · obtain ⟨b', k1, k2, k3, k4, k5, k6⟩ := hu.2 b (by simpa using k)
      exact k6
  obtain ⟨s1', s1, ψ, K1, r1, r2, r3, dd⟩ := point_fr hGc hIc hRi hOn rfl j (fun g hg => by
    obtain ⟨a, ha, -⟩ := Option.map_eq_some_iff.1 hg
    obtain ⟨k1, -, -, k2, k3⟩ := hF a ha
    refine ⟨by rw [k1]; rfl, k2, ?_⟩
    unfold ren
    simpa using k3)
  have hcs : (isort lessInc B ++ W.toList).map cslot = ((isort lessInc B ++ W.toList).map phi).map (sl id) := by rw [List.map_map]; rfl
  have es : s1 = sp' := by
    rw [point45 ev.1.1 rfl rfl, z1, z2, hpend, hcs] at q1
    have r2' := r2
    rw [q1] at r2'
    exact (Option.some_inj.1 r2').symm
  subst es
  have q1' : Frac45.processPoint ev.1.1 [cAt s' ((B.map phi).map (mt φ)) (-1), cAt s' ((B.map phi).map (mt φ)) 0, cAt s' ((B.map phi).map (mt φ)) 1, cAt s' ((B.map phi).map (mt φ)) 2]
      [iAt v.2 s' ((B.map phi).map (mt φ)) (-1), iAt v.2 s' ((B.map phi).map (mt φ)) 0, iAt v.2 s' ((B.map phi).map (mt φ)) 1, iAt v.2 s' ((B.map phi).map (mt φ)) 2] s'.H s'.out s'.els = some s1' := by
    rw [pointF ev.1.1 rfl rfl, is', is', is', is', z2, cs', cs', cs', cs']
    have := nzs_cm φ [cAt s0 (B.map phi) (-1), cAt s0 (B.map phi) 0, cAt s0 (B.map phi) 1, cAt s0 (B.map phi) 2]
    simp only [List.map_cons, List.map_nil] at this
    rw [this, z1, hcs]
    have := pend_cm φ [cAt s0 (B.map phi) (-1), cAt s0 (B.map phi) 0, cAt s0 (B.map phi) 1, cAt s0 (B.map phi) 2]
    simp only [List.map_cons, List.map_nil] at this
    rw [this, hpend]
    have e3 : (((isort lessInc B ++ W.toList).map phi).map (sl id)).map (cm φ) = ((isort lessInc B ++ W.toList).map phi).map (sl φ) := by rw [List.map_map]; rfl
    rw [e3]
    exact r1
  have hone : Frac45.onePoint x sd' s' = Frac45.holeUp x sd' (A.length + B.length)
      ⟨todo E ((ev :: r).dropWhile (fun e => decide (e.1.1 = ev.1.1))), s1'.H, s1'.out, s1'.els, s1'.ret, s1'.rc, s'.rm ++ (List.range B.length).map (· + A.length)⟩ := by
    unfold Frac45.onePoint
    rw [f.evs, htd']
    simp only [hv2] at hp ⊢
    simp only [hp, l1', l2']
    rw [htw', htw2, hq, List.length_map, List.length_map]
    exact congrArg (fun o : Option Form45.PS => o.bind (fun q => Frac45.holeUp x sd' (A.length + B.length)
      ⟨todo E ((ev :: r).dropWhile (fun e => decide (e.1.1 = ev.1.1))), q.H, q.out, q.els, q.ret, q.rc, s'.rm ++ (List.range B.length).map (· + A.length)⟩)) q1'
  -- after the point
  have hvu : (upE x ⟨todo E ((ev :: r).dropWhile (fun e => decide (e.1.1 = ev.1.1))), s1.H, s1.out, s1.els, s1.ret, s1.rc, s0.rm ++ (List.range B.length).map (· + A.length)⟩).map Prod.snd =
      (vert ev.1.1 s1).map Prod.snd ∧ ∀ a ∈ upE x ⟨todo E ((ev :: r).dropWhile (fun e => decide (e.1.1 = ev.1.1))), s1.H, s1.out, s1.els, s1.ret, s1.rc, s0.rm ++ (List.range B.length).map (· + A.length)⟩,
        ∃ b ∈ vert ev.1.1 s1, b.2 = a.2 ∧ b.1.count = a.1.count ∧ Rise a.1.rise ∧ ∀ q, On b.1 q → On a.1 q := by
    unfold upE vert
    dsimp only
    rcases s1.ret with _ | g
    · exact ⟨rfl, by simp⟩
    · dsimp only
      by_cases c0 : s1.rc = 0
      · rw [if_pos c0, if_pos c0]; exact ⟨rfl, by simp⟩
      · rw [if_neg c0, if_neg c0]
        refine ⟨rfl, ?_⟩
        intro a ha
        rw [List.mem_singleton.1 ha]
        refine ⟨_, List.mem_singleton.2 rfl, rfl, rfl, Or.inr (Or.inr (Or.inr rfl)), ?_⟩
        intro q hq
        unfold On at hq ⊢
        rw [if_pos rfl] at hq ⊢
        exact hq.trans hx
  have fi : FI x sd (fun q => dn q || q == ev.1.1) τ ψ K1 sd'
      ⟨todo E ((ev :: r).dropWhile (fun e => decide (e.1.1 = ev.1.1))), s1'.H, s1'.out, s1'.els, s1'.ret, s1'.rc, s'.rm ++ (List.range B.length).map (· + A.length)⟩
      ⟨todo E ((ev :: r).dropWhile (fun e => decide (e.1.1 = ev.1.1))), s1.H, s1.out, s1.els, s1.ret, s1.rc, s0.rm ++ (List.range B.length).map (· + A.length)⟩ := by
    have pp : ((liv sd (fun q => dn q || q == ev.1.1) ++ (upE x ⟨todo E ((ev :: r).dropWhile (fun e => decide (e.1.1 = ev.1.1))), s1.H, s1.out, s1.els, s1.ret, s1.rc,
        s0.rm ++ (List.range B.length).map (· + A.length)⟩ ++ s1.els)).map Prod.snd).Perm ((liv sd (fun q => dn q || q == ev.1.1) ++ (vert ev.1.1 s1 ++ s1.els)).map Prod.snd) := by
      refine List.Perm.of_eq ?_
      simp only [List.map_append (f := Prod.snd)]
      rw [hvu.1]
    refine ⟨rfl, f.el, ?_, dd.sim, ?_, dd.els, dd.ret, dd.rc, by rw [f.rm], dd.out, ?_⟩
    · intro a ha hd
      have hd := (Bool.or_eq_false_iff.1 hd).1
      rw [f.tau a ha hd]
      refine (r3 _ ?_).symm
      exact f.ends.lt f.sim (a := phi a) (List.mem_append_left _ (List.mem_map.2 ⟨a, List.mem_filter.2 ⟨ha, by rw [hd]; rfl⟩, rfl⟩))
    · refine dd.ends.of pp ?_
      intro a ha
      have hs : ∀ a ∈ liv sd (fun q => dn q || q == ev.1.1) ++ (vert ev.1.1 s1 ++ s1.els), ∃ b ∈ liv sd (fun q => dn q || q == ev.1.1) ++ (vert ev.1.1 s1 ++ s1.els),
          b.2 = a.2 ∧ b.1.count = a.1.count ∧ Rise a.1.rise ∧ ∀ q, On b.1 q → On a.1 q := fun a ha => ⟨a, ha, rfl, rfl, dd.ends.rise a ha, fun _ h => h⟩
      rcases List.mem_append.1 ha with g | g
      · exact hs a (List.mem_append_left _ g)
      · rcases List.mem_append.1 g with g | g
        · obtain ⟨b, k1, k2⟩ := hvu.2 a g
          exact ⟨b, List.mem_append_right _ (List.mem_append_left _ k1), k2⟩
        · exact hs a (List.mem_append_right _ (List.mem_append_right _ g))
    · intro g hg h0
      have := (dd.fl g hg h0).of pp
      rwa [hx] at this
  rw [hone]
  have hlen : A.length + B.length = (A ++ B).length := by simp
  rw [hlen] at ht0 ⊢
  refine holeUp_fr fi (C := C) (by rw [hh.split]; simp) hnd ?_ ht0
  intro g hg h0
  dsimp only at hg h0
  have hsr : sp.ret = some g := by rw [← q2.ret]; exact hg
  have hsc : sp.rc.2 = 0 := by rw [← q2.rc]; exact h0
  have htt : tt D ev.1.1 = 1 := by
    rcases ha.ret with ⟨-, (⟨-, k⟩ | ⟨a, haN, -, -, k⟩)⟩ | ⟨-, -, -, k, -⟩
    · rw [k] at hsr; cases hsr
    · exfalso
      rw [k] at hsc
      have hm : key a ∈ inc := ha.keys.mem_iff.1 (List.mem_map.2 ⟨a, haN, rfl⟩)
      have := Colors.ne hh.icol (key a) (List.mem_reverse.2 hm)
      unfold key at this
      dsimp only at hsc this
      omega
    · exact k
  have hsumC := above_sum c hc hh.vtx hx hh.split hh.below hh.at_ hh.above
  rw [hh.split, List.reverse_append, List.reverse_append, List.append_assoc] at hcol
  obtain ⟨t', hcol1, -⟩ := hcol.split
  rcases C with _ | ⟨a, C'⟩
  · simp at hsumC; omega
  · have ht' : t' = 1 := by
      have := hcol1.sum
      rw [(((List.reverse_perm (a :: C')).map _).sum_eq : _ = ((a :: C').map (fun a : V × Nat => a.1.2)).sum)] at this
      omega
    rw [List.reverse_cons] at hcol1
    obtain ⟨t1, k1, k2⟩ := hcol1.split
    obtain ⟨k3, k4, k5, -⟩ := k2
    dsimp only at k4 k5
    have has : a ∈ sd := by rw [hh.split]; simp
    refine ⟨a, C', rfl, hh.top c hc m List.mem_cons_self, by omega, ?_⟩
    have := rho_nv (hc.mem has).2.nv
    show rho _ _ ≠ 2
    omega

end Verif.Fr
