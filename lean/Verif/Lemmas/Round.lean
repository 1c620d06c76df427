import Verif.Lemmas.RegevCore
import Verif.Lemmas.RegevTotal
import Verif.Spec.Round

namespace Verif
open Spec Regev
open scoped BigOperators

section
variable {q : ℕ} [Fact q.Prime] {G : Type} [AddCommGroup G] [Module (ZMod q) G]

theorem slot_empty {cs : List (LinConstraint (ZMod q))} (h : ∀ c ∈ cs, c = ⟨[], 0⟩) (j : ℕ) :
    cs.getD j ⟨[], 0⟩ = ⟨[], 0⟩ := by
  rw [List.getD_eq_getElem?_getD]
  cases e : cs[j]? with
  | none => rfl
  | some c => exact h c (List.mem_of_getElem? e)

theorem slotOk_at {cs : List (LinConstraint (ZMod q))} {s w : ℕ} (h : SlotOk cs s w) {i : ℕ}
    {c : LinConstraint (ZMod q)} (hc : cs[i]? = some c) (hi : i = s ∨ i = s + 1) :
    Sorted c.terms ∧ ∀ k ∈ keys c.terms, k < w := by
  rcases hi with rfl | rfl
  · have := h 0
    rw [List.getD_eq_getElem?_getD] at this
    simp only [Fin.val_zero, Nat.add_zero, hc, Option.getD_some] at this
    exact this
  · have := h 1
    rw [List.getD_eq_getElem?_getD] at this
    simp only [Fin.val_one, hc, Option.getD_some] at this
    exact this

theorem slotSat_at {cs : List (LinConstraint (ZMod q))} {s : ℕ} {x : ℕ → ZMod q} (h : SlotSat cs s x) {i : ℕ}
    {c : LinConstraint (ZMod q)} (hc : cs[i]? = some c) (hi : i = s ∨ i = s + 1) : LinSat c x := by
  obtain ⟨a, b, h1, h2, h3, h4⟩ := h
  rcases hi with rfl | rfl
  · rw [hc] at h1; rw [Option.some.inj h1]; exact h3
  · rw [hc] at h2; rw [Option.some.inj h2]; exact h4

theorem keys_eq_range {m : PtxtVec (ZMod q)} (hm : Sorted m) {n : ℕ} (h : ∀ j, j ∈ keys m ↔ j < n) :
    m = tab (List.range n) (coef m) := by
  have hk : keys m = List.range n := by
    apply List.Perm.eq_of_pairwise (le := (· < ·)) (fun a b _ _ h1 h2 => absurd h1 (by omega))
    · unfold keys; rw [List.pairwise_map]; exact hm
    · exact List.pairwise_lt_range
    · rw [List.perm_ext_iff_of_nodup]
      · intro a; rw [h a, List.mem_range]
      · unfold keys
        rw [List.Nodup, List.pairwise_map]
        exact hm.imp fun h => by omega
      · exact List.nodup_range
  conv_lhs => rw [map_eq_tab hm, hk]

theorem resharing_eq {lagrange pt1 pt2 : List (ZMod q)} {a b enn tee : ℕ} {x : ℕ → ZMod q}
    (hl : lagrange.length = tee) (h1 : pt1.length = tee) (h2 : pt2.length = enn)
    (r1 : Reads x a pt1) (r2 : Reads x b pt2) :
    resharing lagrange a b enn x =
      (∑ i ∈ Finset.range tee, lagrange.getD i 0 * pt1.getD i 0) :: pt2 := by
  unfold resharing
  rw [hl]
  congr 1
  · exact sum_range_congr fun i hi => by rw [r1.val i (by omega)]
  · have := reads_map r2
    rw [h2] at this
    exact this

theorem putAll_left {m : PtxtVec (ZMod q)} (hm : Sorted m) {A B : List (ℕ × List (ZMod q))}
    (hA : A.Pairwise Apart) (hd : ∀ j, Covers A j → ¬ Covers B j) :
    ∀ p ∈ A, Reads (coef (putAll m (A ++ B))) p.1 p.2 := by
  intro p hp i a hi
  obtain ⟨h1, -, -, h4⟩ := putAll_spec A m hm
  obtain ⟨-, -, h3, -⟩ := putAll_spec B _ h1
  have hl := (List.getElem?_eq_some_iff.1 hi).1
  rw [putAll_append, h3, h4 hA p hp i a hi]
  intro p' hp' hc
  exact hd (p.1 + i) ⟨p, hp, by omega, by omega⟩ ⟨p', hp', hc⟩

/-- One honest round. -/
theorem round_core {E : Env (ZMod q) G} (hE : LengthOk E) {P : Params q} (hP : ParamsOk P)
    {tests : ℕ → Tests} (hT : ∀ k, NoFalsePrimes (tests k).probPrime) {fresh : Blocks (ZMod q)}
    {small : ℕ → SmallRnd q} {inp : RoundInput q} (hI : Honest P inp)
    {vd vd' : VerifierData (ZMod q) G E.St} {pd pd' : ProverData (ZMod q)} (S : Start E P inp.sk1 vd pd)
    (h : proveRound E P fresh tests small inp vd pd = .ok (vd', pd')) (x : ℕ → ZMod q)
    (hx : x = coef pd'.linWitness) :
    (Prepared E.base P.gk.kay P.gk.enn P.gk.tee vd' pd' x ∨ ∃ k < 10, PadFailed P tests x k) ∧
    (Reads x vd.ix.sk1 (coeffs inp.sk1) ∧ Reads x vd.ix.pt1 inp.pt1 ∧ Reads x vd.ix.r (coeffs inp.encRnd) ∧
      Reads x vd.ix.pt2 inp.pt2 ∧ Reads x vd.ix.sk2 (coeffs inp.sk2)) ∧
    (∀ k < 10, NormRecorded P vd'.normConstr k) ∧
    Setup P vd' pd' ∧ vd'.ix = vd.ix ∧ vd'.Gs = vd.Gs ∧ vd'.Hs = vd.Hs ∧
    vd'.com.sk2 = comG E.base vd.Gs x vd.ix.sk2 (P.gk.kay * 2) pd'.rnd.sk2 ∧
    (∀ k ∈ keys pd'.linWitness, k < vd.ix.w) ∧ (∀ k ∈ keys pd'.quadWitnessG, k < 260 * 10) := by
  have S0 := S.setup
  have hL := lay_of S0.layout
  unfold proveRound at h
  obtain ⟨⟨vd1, pd1⟩, h1, h⟩ := Res.bind_eq_ok.1 h
  obtain ⟨⟨vd2, pd2⟩, h2, h⟩ := Res.bind_eq_ok.1 h
  obtain ⟨⟨vd3, pd3⟩, h3, h⟩ := Res.bind_eq_ok.1 h
  obtain ⟨⟨vd4, pd4⟩, h4, h5⟩ := Res.bind_eq_ok.1 h
  simp only at h2 h3 h4 h5
  -- decryption
  obtain ⟨L1, W1, s1, l1, w1, v1, k1, o1, c1, r1⟩ :=
    dec_core hE hP hT S0 hI.ctMat hI.ctVec hI.pt1 hI.sk1 hI.decNoise hI.decrypts h1
  have S1 := s1.setup S0
  -- encryption
  have e6 : vd1.linConstr[6]? = vd.linConstr[6]? := s1.linRest 6 (by simp)
  have e7 : vd1.linConstr[7]? = vd.linConstr[7]? := s1.linRest 7 (by simp)
  have h6 : ∀ j : Fin 2, vd1.linConstr.getD (6 + j.val) ⟨[], 0⟩ = ⟨[], 0⟩ := by
    intro j
    have e : vd1.linConstr.getD (6 + j.val) ⟨[], 0⟩ = vd.linConstr.getD (6 + j.val) ⟨[], 0⟩ := by
      rw [List.getD_eq_getElem?_getD, List.getD_eq_getElem?_getD]
      have : j.val = 0 ∨ j.val = 1 := by omega
      rcases this with e | e <;> rw [e]
      · rw [Nat.add_zero, e6]
      · rw [e7]
    rw [e, slot_empty S.linEmpty]
  have h6a : SlotOk vd1.linConstr 6 vd1.ix.w := by
    intro i
    rw [h6]
    exact ⟨List.Pairwise.nil, fun j hj => absurd hj List.not_mem_nil⟩
  have h6b : ∀ x, slotLhs vd1.linConstr 6 x = 0 := by
    intro x
    unfold slotLhs
    apply Elt.ext
    funext i
    simp only [h6]
    simp [linLhs]
  obtain ⟨L2, W2, s2, l2, w2, v2, k2, k4, k6, o2, c2, r2⟩ :=
    enc_core hE hP hT S1 h6a h6b hI.ct1 hI.ct2 hI.pt2 hI.encRnd hI.encNoise1 hI.encNoise2 hI.encrypts1
      hI.encrypts2 h2
  have S2 := s2.setup S1
  -- key generation
  obtain ⟨L3, W3, s3, l3, w3, v3, k8, k10, o3, c3, r3⟩ :=
    key_core hE hP hT S2 hI.sk2 hI.keyNoise hI.keyFor h3
  have S3 := s3.setup S2
  have i1 := s1.ix
  have i2 := s2.ix.trans i1
  have i3 := s3.ix.trans i2
  have g1 := s1.Gs
  have g2 := s2.Gs.trans g1
  have g3 := s3.Gs.trans g2
  have f1 := s1.Hs
  have f2 := s2.Hs.trans f1
  have f3 := s3.Hs.trans f2
  -- all three together
  have s12 := s1.trans s2 (by rw [l1, l2]; decide)
  have s123 := s12.trans s3 (by rw [List.map_append, l1, l2, l3]; decide)
  have hblk : ∀ k < 10, ∃ p ∈ L1 ++ L2 ++ L3, p.1 = k := by
    intro k hk
    have : k ∈ (L1 ++ L2 ++ L3).map Prod.fst := by
      rw [List.map_append, List.map_append, l1, l2, l3]
      simp only [List.cons_append, List.nil_append, List.mem_cons, List.not_mem_nil, or_false]
      omega
    obtain ⟨p, hp, e⟩ := List.mem_map.1 this
    exact ⟨p, hp, e⟩
  -- resharing
  have hre : inp.pt1.length = P.gk.tee ∧ inp.lagrange.length = P.gk.tee ∧ inp.pt2.length = P.gk.enn ∧
      (∀ row ∈ P.H, row.length = 1 + P.gk.enn) ∧ 14 + P.H.length ≤ vd3.linConstr.length := by
    by_contra hc
    rw [reshare_run.2 hc] at h4
    cases h4
  obtain ⟨lin, q1, q2, q3, q4⟩ := (reshare_run (pd := pd3)).1 hre
  rw [q1] at h4
  obtain ⟨e4, e5⟩ := Prod.mk.inj (Res.ok.inj h4)
  have S4 : Setup P vd4 pd4 := by
    rw [← e4, ← e5]
    exact ⟨S3.layout, S3.small, S3.gs, S3.hs, by rw [q2]; exact S3.lin, S3.normLength, S3.norm,
      S3.compressed, S3.linWitness, S3.quadWitness⟩
  -- smallness
  obtain ⟨i, y, u, y1, y2, y3, y4, y5, y6, y7, y8, y9, y10, y11, y12⟩ := small_run hE S4 h5
  have hyl : y.length = 64 := by rw [y1]; simp
  have m4 : pd4 = pd3 := e5.symm
  have z4 : vd4 = { vd3 with linConstr := lin } := e4.symm
  have z5 : vd'.ix = vd.ix := by rw [y11, z4]; exact i3
  have z6 : vd'.Gs = vd.Gs := by rw [y11, z4]; exact g3
  have z7 : vd'.Hs = vd.Hs := by rw [y11, z4]; exact f3
  have z8 : vd'.normConstr = vd3.normConstr := by rw [y11, z4]
  have z9 : vd4.ix = vd.ix := by rw [z4]; exact i3
  -- the witness
  have hwit : pd'.linWitness = putAll pd.linWitness (W1 ++ W2 ++ W3 ++ [(vd.ix.y, coeffs y)]) := by
    rw [putAll_append, ← s123.linWitness, y12, ← m4, ← z9]
  have hyc : (coeffs y).length = 128 := by rw [coeffs_length, hyl]
  have hcov : ∀ j, Covers (W1 ++ W2 ++ W3 ++ [(vd.ix.y, coeffs y)]) j ↔ j < vd.ix.w := by
    intro j
    rw [covers_append, covers_append, covers_append, v1, v2, v3, covers_cons]
    simp only [covers_nil, or_false, hyc, i1, i2, List.mem_cons, List.not_mem_nil]
    rw [hL.w, hL.pt1, hL.r, hL.pt2, hL.y]
    rcases hL.sk with ⟨a, b⟩ | ⟨a, b⟩ <;> rw [a, b] <;> omega
  have hm := S0.linWitness
  have hd : ∀ j, Covers W1 j → ¬ Covers (W2 ++ (W3 ++ [(vd.ix.y, coeffs y)])) j := by
    intro j
    rw [covers_append, covers_append, v1, v2, v3, covers_cons]
    simp only [covers_nil, or_false, hyc, i1, i2, List.mem_cons, List.not_mem_nil]
    rw [hL.pt1, hL.r, hL.pt2, hL.y]
    rcases hL.sk with ⟨a, b⟩ | ⟨a, b⟩ <;> rw [a, b] <;> omega
  have hd2 : ∀ j, Covers W2 j → ¬ Covers (W3 ++ [(vd.ix.y, coeffs y)]) j := by
    intro j
    rw [covers_append, v2, v3, covers_cons]
    simp only [covers_nil, or_false, hyc, i1, i2, List.mem_cons, List.not_mem_nil]
    rw [hL.r, hL.pt2, hL.y]
    rcases hL.sk with ⟨a, b⟩ | ⟨a, b⟩ <;> omega
  have hd3 : ∀ j, Covers W3 j → ¬ Covers [(vd.ix.y, coeffs y)] j := by
    intro j
    rw [v3, covers_cons]
    simp only [covers_nil, or_false, hyc, i2, List.mem_cons, List.not_mem_nil]
    rw [hL.y]
    rcases hL.sk with ⟨a, b⟩ | ⟨a, b⟩ <;> omega
  have hwit' : pd'.linWitness = putAll pd.linWitness (W1 ++ (W2 ++ (W3 ++ [(vd.ix.y, coeffs y)]))) := by
    rw [hwit, List.append_assoc, List.append_assoc]
  have hm1 := (putAll_spec W1 _ hm).1
  have hm2 := (putAll_spec W2 _ hm1).1
  have hm3 := (putAll_spec W3 _ hm2).1
  have rd1 : ∀ p ∈ W1, Reads x p.1 p.2 := by
    rw [hx, hwit']; exact putAll_left hm w1 hd
  have rd2 : ∀ p ∈ W2, Reads x p.1 p.2 := by
    rw [hx, hwit', putAll_append]; exact putAll_left hm1 w2 hd2
  have rd3 : ∀ p ∈ W3, Reads x p.1 p.2 := by
    rw [hx, hwit', putAll_append, putAll_append]; exact putAll_left hm2 w3 hd3
  have rd4 : Reads x vd.ix.y (coeffs y) := by
    rw [hx, hwit', putAll_append, putAll_append, putAll_append]
    intro a b hab
    exact (putAll_spec _ _ hm3).2.2.2 (List.pairwise_singleton _ _) (vd.ix.y, coeffs y) (by simp) a b hab
  have rd123 : ∀ p ∈ W1 ++ W2 ++ W3, Reads x p.1 p.2 := by
    intro p hp
    rcases List.mem_append.1 hp with hp | hp
    · rcases List.mem_append.1 hp with hp | hp
      · exact rd1 p hp
      · exact rd2 p hp
    · exact rd3 p hp
  have hb : ∀ k < 10, BlockRecorded P tests vd3 pd3 x k := by
    intro k hk
    obtain ⟨p, hp, rfl⟩ := hblk k hk
    exact s123.blocks S0 hP rd123 hp
  obtain ⟨t0, ta, tb, a1, a2, a3, a4, a5⟩ := o1 x rd1
  obtain ⟨⟨t2, t4, t6⟩, tc, td, b1, b2, b3, b4, b5, b6, b7, b8, b9, b10, b11, b12⟩ := o2 x rd2
  obtain ⟨⟨t8, t10⟩, te, d1, d2, d3, d4, d5, d6, d7⟩ := o3 x rd3
  rw [i1, g1, f1] at b1 b2 b3 b4 b5 b6 b7 b8 b9 b10
  rw [i1, g1] at b11 b12
  rw [i1] at tc td
  rw [i2, g2, f2] at d1 d2 d3 d4 d5 d6
  rw [i2, g2] at d7
  rw [i2] at te
  have hkeys : ∀ j, j ∈ keys pd'.linWitness ↔ j < vd.ix.w := by
    intro j
    rw [hwit, (putAll_spec _ _ hm).2.1]
    have := hcov j
    unfold Covers at this
    rw [this]
    exact or_iff_left_of_imp (S.linKeys j)
  have hq3 : pd'.quadWitnessG = pd3.quadWitnessG := by rw [y12, m4]
  have hqk : ∀ j, j ∈ keys pd'.quadWitnessG ↔ j < 260 * 10 := by
    intro j
    rw [hq3, s123.quadWitness, (putAll_spec _ _ S0.quadWitness).2.1]
    have := covers_pairs s123.pads j
    unfold Covers at this
    rw [this, List.map_append, List.map_append, l1, l2, l3]
    simp only [List.cons_append, List.nil_append, List.mem_cons, List.not_mem_nil, or_false]
    have := S.quadKeys j
    constructor
    · rintro (h | h)
      · omega
      · exact this h
    · intro h; left; omega
  have S5 : Setup P vd' pd' := by
    refine ⟨by rw [z5]; exact S0.layout, by rw [z5]; exact S0.small, by rw [z5, z6]; exact S0.gs,
      by rw [z7]; exact S0.hs, ?_, by rw [z8]; exact S3.normLength, by rw [z8]; exact S3.norm, ?_, ?_, ?_⟩
    · rw [y9.1]; exact S4.lin
    · rw [y12]; exact S4.compressed
    · rw [hwit]; exact (putAll_spec _ _ hm).1
    · rw [hq3]; exact S3.quadWitness
  have rsk2 : pd'.rnd.sk2 = pd3.rnd.sk2 := by rw [y12, m4]
  have csk2 : vd'.com.sk2 = vd3.com.sk2 := by rw [y11, z4]
  refine ⟨?_, ⟨ta, tb, tc, td, te⟩, fun k hk => by rw [z8]; exact (hb k hk).norm, S5, z5, z6, z7,
    by rw [csk2, rsk2]; exact d7, fun k hk => (hkeys k).1 hk, fun k hk => (hqk k).1 hk⟩
  by_cases hpf : ∃ k < 10, PadFailed P tests x k
  · exact Or.inr hpf
  left
  have hc : ∀ i < 1300, pd4.compressed.getD i 0 = eltAt x 0 i := by
    intro i hi
    have := (hb (i / 130) (by omega)).compressed (i % 130) (Nat.mod_lt _ (by norm_num))
    rw [m4, List.getD_eq_getElem?_getD, show i = 130 * (i / 130) + i % 130 by omega, this, Option.getD_some]
    unfold eltAt
    congr 1
    funext j
    congr 1
    omega
  have t12 : SlotSat vd'.linConstr 12 x := by
    refine (y8.slotSat x).2 (batch_zero fun j hj => ?_)
    rw [y5 j hj, y3 j hj, z9, rd4.elt j (by omega),
      sum_range_congr (n := 1300) (f := fun i => pd4.compressed.getD i 0 *
        (smallChallenges E vd4.mer vd'.com vd'.z).1 i j)
        (g := fun i => eltAt x 0 i * (smallChallenges E vd4.mer vd'.com vd'.z).1 i j)
        fun i hi => by rw [hc i hi]]
    ring
  have k12 := y8.slotOk
  rw [z9] at k12
  rw [i1] at k2 k4 k6
  rw [i2] at k8 k10
  have hlin : ∀ c ∈ vd'.linConstr, Sorted c.terms ∧ (∀ k ∈ keys c.terms, k < vd.ix.w) ∧ LinSat c x := by
    intro c hc
    obtain ⟨i, hi⟩ := List.mem_iff_getElem?.1 hc
    by_cases hi12 : i = 12 ∨ i = 12 + 1
    · exact ⟨(slotOk_at k12 hi hi12).1, (slotOk_at k12 hi hi12).2, slotSat_at t12 hi hi12⟩
    rw [not_or] at hi12
    rw [y9.2 i hi12.1 hi12.2, z4] at hi
    by_cases hi14 : i < 14
    · have hi := hi
      simp only [q3 i (Or.inl hi14)] at hi
      by_cases h8 : i = 8 ∨ i = 8 + 1
      · exact ⟨(slotOk_at k8 hi h8).1, (slotOk_at k8 hi h8).2, slotSat_at t8 hi h8⟩
      by_cases h10 : i = 10 ∨ i = 10 + 1
      · exact ⟨(slotOk_at k10 hi h10).1, (slotOk_at k10 hi h10).2, slotSat_at t10 hi h10⟩
      rw [s3.linRest i (by simp; omega)] at hi
      by_cases h2 : i = 2 ∨ i = 2 + 1
      · exact ⟨(slotOk_at k2 hi h2).1, (slotOk_at k2 hi h2).2, slotSat_at t2 hi h2⟩
      by_cases h4 : i = 4 ∨ i = 4 + 1
      · exact ⟨(slotOk_at k4 hi h4).1, (slotOk_at k4 hi h4).2, slotSat_at t4 hi h4⟩
      by_cases h6 : i = 6 ∨ i = 6 + 1
      · exact ⟨(slotOk_at k6 hi h6).1, (slotOk_at k6 hi h6).2, slotSat_at t6 hi h6⟩
      rw [s2.linRest i (by simp; omega)] at hi
      have h0 : i = 0 ∨ i = 0 + 1 := by omega
      exact ⟨(slotOk_at k1 hi h0).1, (slotOk_at k1 hi h0).2, slotSat_at t0 hi h0⟩
    · by_cases hiH : i < 14 + P.H.length
      · obtain ⟨c', p1, p2, p3, p4⟩ := q4 (i - 14) _ (List.getElem?_eq_getElem (by omega))
        rw [show 14 + (i - 14) = i by omega] at p1
        simp only [p1, Option.some.injEq] at hi
        subst hi
        refine ⟨p2, fun k hk => ?_, (p4 x).2 ?_⟩
        · have := p3 k hk
          rw [i3, hL.pt1, hL.pt2] at this
          rw [hL.w]
          omega
        · rw [i3, resharing_eq hre.2.1 hre.1 hre.2.2.1 tb td]
          exact hI.reshares _ (List.mem_map.2 ⟨_, List.getElem_mem _, rfl⟩)
      · have hi := hi
        simp only [q3 i (Or.inr (by omega))] at hi
        rw [s3.linRest i (by simp; omega), s2.linRest i (by simp; omega), s1.linRest i (by simp; omega)] at hi
        rw [S.linEmpty c (List.mem_of_getElem? hi)]
        exact ⟨List.Pairwise.nil, fun k hk => absurd hk List.not_mem_nil, by simp [LinSat, linLhs]⟩
  have hnorm : ∀ k < 10, vd'.normConstr[k]? =
      some ⟨List.range' (260 * k) 260, ((normBound P k ^ 2 : ℤ) : ZMod q)⟩ :=
    fun k hk => by rw [z8]; exact (hb k hk).norm
  have hnl : vd'.normConstr.length = 10 := S5.normLength
  have hsk1c : vd'.com.sk1 = vd.com.sk1 := by
    have e1 : vd'.com.sk1 = vd3.com.sk1 := by rw [y11, z4]
    have e2 : vd3.com.sk1 = vd2.com.sk1 := by rw [c3]
    have e3 : vd2.com.sk1 = vd1.com.sk1 := by rw [c2]
    have e4 : vd1.com.sk1 = vd.com.sk1 := by rw [c1]
    rw [e1, e2, e3, e4]
  have hsk1r : pd'.rnd.sk1 = pd.rnd.sk1 := by
    have e1 : pd'.rnd.sk1 = pd3.rnd.sk1 := by rw [y12, m4]
    have e2 : pd3.rnd.sk1 = pd2.rnd.sk1 := by rw [r3]
    have e3 : pd2.rnd.sk1 = pd1.rnd.sk1 := by rw [r2]
    have e4 : pd1.rnd.sk1 = pd.rnd.sk1 := by rw [r1]
    rw [e1, e2, e3, e4]
  have hgs := S0.gs
  have xdCompHi : vd'.com.dCompHi = vd1.com.dCompHi ∧ pd'.rnd.dCompHi = pd1.rnd.dCompHi := by
    have e1 : vd'.com.dCompHi = vd3.com.dCompHi := by rw [y11, z4]
    have e2 : vd3.com.dCompHi = vd2.com.dCompHi := by rw [c3]
    have e3 : vd2.com.dCompHi = vd1.com.dCompHi := by rw [c2]
    have e4 : pd'.rnd.dCompHi = pd3.rnd.dCompHi := by rw [y12, m4]
    have e5 : pd3.rnd.dCompHi = pd2.rnd.dCompHi := by rw [r3]
    have e6 : pd2.rnd.dCompHi = pd1.rnd.dCompHi := by rw [r2]
    exact ⟨e1.trans (e2.trans e3), e4.trans (e5.trans e6)⟩
  have xdPadHi : vd'.com.dPadHi = vd1.com.dPadHi ∧ pd'.rnd.dPadHi = pd1.rnd.dPadHi := by
    have e1 : vd'.com.dPadHi = vd3.com.dPadHi := by rw [y11, z4]
    have e2 : vd3.com.dPadHi = vd2.com.dPadHi := by rw [c3]
    have e3 : vd2.com.dPadHi = vd1.com.dPadHi := by rw [c2]
    have e4 : pd'.rnd.dPadHi = pd3.rnd.dPadHi := by rw [y12, m4]
    have e5 : pd3.rnd.dPadHi = pd2.rnd.dPadHi := by rw [r3]
    have e6 : pd2.rnd.dPadHi = pd1.rnd.dPadHi := by rw [r2]
    exact ⟨e1.trans (e2.trans e3), e4.trans (e5.trans e6)⟩
  have xdCompLo : vd'.com.dCompLo = vd1.com.dCompLo ∧ pd'.rnd.dCompLo = pd1.rnd.dCompLo := by
    have e1 : vd'.com.dCompLo = vd3.com.dCompLo := by rw [y11, z4]
    have e2 : vd3.com.dCompLo = vd2.com.dCompLo := by rw [c3]
    have e3 : vd2.com.dCompLo = vd1.com.dCompLo := by rw [c2]
    have e4 : pd'.rnd.dCompLo = pd3.rnd.dCompLo := by rw [y12, m4]
    have e5 : pd3.rnd.dCompLo = pd2.rnd.dCompLo := by rw [r3]
    have e6 : pd2.rnd.dCompLo = pd1.rnd.dCompLo := by rw [r2]
    exact ⟨e1.trans (e2.trans e3), e4.trans (e5.trans e6)⟩
  have xdPadLo : vd'.com.dPadLo = vd1.com.dPadLo ∧ pd'.rnd.dPadLo = pd1.rnd.dPadLo := by
    have e1 : vd'.com.dPadLo = vd3.com.dPadLo := by rw [y11, z4]
    have e2 : vd3.com.dPadLo = vd2.com.dPadLo := by rw [c3]
    have e3 : vd2.com.dPadLo = vd1.com.dPadLo := by rw [c2]
    have e4 : pd'.rnd.dPadLo = pd3.rnd.dPadLo := by rw [y12, m4]
    have e5 : pd3.rnd.dPadLo = pd2.rnd.dPadLo := by rw [r3]
    have e6 : pd2.rnd.dPadLo = pd1.rnd.dPadLo := by rw [r2]
    exact ⟨e1.trans (e2.trans e3), e4.trans (e5.trans e6)⟩
  have xpt1 : vd'.com.pt1 = vd1.com.pt1 ∧ pd'.rnd.pt1 = pd1.rnd.pt1 := by
    have e1 : vd'.com.pt1 = vd3.com.pt1 := by rw [y11, z4]
    have e2 : vd3.com.pt1 = vd2.com.pt1 := by rw [c3]
    have e3 : vd2.com.pt1 = vd1.com.pt1 := by rw [c2]
    have e4 : pd'.rnd.pt1 = pd3.rnd.pt1 := by rw [y12, m4]
    have e5 : pd3.rnd.pt1 = pd2.rnd.pt1 := by rw [r3]
    have e6 : pd2.rnd.pt1 = pd1.rnd.pt1 := by rw [r2]
    exact ⟨e1.trans (e2.trans e3), e4.trans (e5.trans e6)⟩
  have xrComp : vd'.com.rComp = vd2.com.rComp ∧ pd'.rnd.rComp = pd2.rnd.rComp := by
    have e1 : vd'.com.rComp = vd3.com.rComp := by rw [y11, z4]
    have e2 : vd3.com.rComp = vd2.com.rComp := by rw [c3]
    have e4 : pd'.rnd.rComp = pd3.rnd.rComp := by rw [y12, m4]
    have e5 : pd3.rnd.rComp = pd2.rnd.rComp := by rw [r3]
    exact ⟨e1.trans e2, e4.trans e5⟩
  have xrPad : vd'.com.rPad = vd2.com.rPad ∧ pd'.rnd.rPad = pd2.rnd.rPad := by
    have e1 : vd'.com.rPad = vd3.com.rPad := by rw [y11, z4]
    have e2 : vd3.com.rPad = vd2.com.rPad := by rw [c3]
    have e4 : pd'.rnd.rPad = pd3.rnd.rPad := by rw [y12, m4]
    have e5 : pd3.rnd.rPad = pd2.rnd.rPad := by rw [r3]
    exact ⟨e1.trans e2, e4.trans e5⟩
  have xeComp1Hi : vd'.com.eComp1Hi = vd2.com.eComp1Hi ∧ pd'.rnd.eComp1Hi = pd2.rnd.eComp1Hi := by
    have e1 : vd'.com.eComp1Hi = vd3.com.eComp1Hi := by rw [y11, z4]
    have e2 : vd3.com.eComp1Hi = vd2.com.eComp1Hi := by rw [c3]
    have e4 : pd'.rnd.eComp1Hi = pd3.rnd.eComp1Hi := by rw [y12, m4]
    have e5 : pd3.rnd.eComp1Hi = pd2.rnd.eComp1Hi := by rw [r3]
    exact ⟨e1.trans e2, e4.trans e5⟩
  have xePad1Hi : vd'.com.ePad1Hi = vd2.com.ePad1Hi ∧ pd'.rnd.ePad1Hi = pd2.rnd.ePad1Hi := by
    have e1 : vd'.com.ePad1Hi = vd3.com.ePad1Hi := by rw [y11, z4]
    have e2 : vd3.com.ePad1Hi = vd2.com.ePad1Hi := by rw [c3]
    have e4 : pd'.rnd.ePad1Hi = pd3.rnd.ePad1Hi := by rw [y12, m4]
    have e5 : pd3.rnd.ePad1Hi = pd2.rnd.ePad1Hi := by rw [r3]
    exact ⟨e1.trans e2, e4.trans e5⟩
  have xeComp1Lo : vd'.com.eComp1Lo = vd2.com.eComp1Lo ∧ pd'.rnd.eComp1Lo = pd2.rnd.eComp1Lo := by
    have e1 : vd'.com.eComp1Lo = vd3.com.eComp1Lo := by rw [y11, z4]
    have e2 : vd3.com.eComp1Lo = vd2.com.eComp1Lo := by rw [c3]
    have e4 : pd'.rnd.eComp1Lo = pd3.rnd.eComp1Lo := by rw [y12, m4]
    have e5 : pd3.rnd.eComp1Lo = pd2.rnd.eComp1Lo := by rw [r3]
    exact ⟨e1.trans e2, e4.trans e5⟩
  have xePad1Lo : vd'.com.ePad1Lo = vd2.com.ePad1Lo ∧ pd'.rnd.ePad1Lo = pd2.rnd.ePad1Lo := by
    have e1 : vd'.com.ePad1Lo = vd3.com.ePad1Lo := by rw [y11, z4]
    have e2 : vd3.com.ePad1Lo = vd2.com.ePad1Lo := by rw [c3]
    have e4 : pd'.rnd.ePad1Lo = pd3.rnd.ePad1Lo := by rw [y12, m4]
    have e5 : pd3.rnd.ePad1Lo = pd2.rnd.ePad1Lo := by rw [r3]
    exact ⟨e1.trans e2, e4.trans e5⟩
  have xeComp2Hi : vd'.com.eComp2Hi = vd2.com.eComp2Hi ∧ pd'.rnd.eComp2Hi = pd2.rnd.eComp2Hi := by
    have e1 : vd'.com.eComp2Hi = vd3.com.eComp2Hi := by rw [y11, z4]
    have e2 : vd3.com.eComp2Hi = vd2.com.eComp2Hi := by rw [c3]
    have e4 : pd'.rnd.eComp2Hi = pd3.rnd.eComp2Hi := by rw [y12, m4]
    have e5 : pd3.rnd.eComp2Hi = pd2.rnd.eComp2Hi := by rw [r3]
    exact ⟨e1.trans e2, e4.trans e5⟩
  have xePad2Hi : vd'.com.ePad2Hi = vd2.com.ePad2Hi ∧ pd'.rnd.ePad2Hi = pd2.rnd.ePad2Hi := by
    have e1 : vd'.com.ePad2Hi = vd3.com.ePad2Hi := by rw [y11, z4]
    have e2 : vd3.com.ePad2Hi = vd2.com.ePad2Hi := by rw [c3]
    have e4 : pd'.rnd.ePad2Hi = pd3.rnd.ePad2Hi := by rw [y12, m4]
    have e5 : pd3.rnd.ePad2Hi = pd2.rnd.ePad2Hi := by rw [r3]
    exact ⟨e1.trans e2, e4.trans e5⟩
  have xeComp2Lo : vd'.com.eComp2Lo = vd2.com.eComp2Lo ∧ pd'.rnd.eComp2Lo = pd2.rnd.eComp2Lo := by
    have e1 : vd'.com.eComp2Lo = vd3.com.eComp2Lo := by rw [y11, z4]
    have e2 : vd3.com.eComp2Lo = vd2.com.eComp2Lo := by rw [c3]
    have e4 : pd'.rnd.eComp2Lo = pd3.rnd.eComp2Lo := by rw [y12, m4]
    have e5 : pd3.rnd.eComp2Lo = pd2.rnd.eComp2Lo := by rw [r3]
    exact ⟨e1.trans e2, e4.trans e5⟩
  have xePad2Lo : vd'.com.ePad2Lo = vd2.com.ePad2Lo ∧ pd'.rnd.ePad2Lo = pd2.rnd.ePad2Lo := by
    have e1 : vd'.com.ePad2Lo = vd3.com.ePad2Lo := by rw [y11, z4]
    have e2 : vd3.com.ePad2Lo = vd2.com.ePad2Lo := by rw [c3]
    have e4 : pd'.rnd.ePad2Lo = pd3.rnd.ePad2Lo := by rw [y12, m4]
    have e5 : pd3.rnd.ePad2Lo = pd2.rnd.ePad2Lo := by rw [r3]
    exact ⟨e1.trans e2, e4.trans e5⟩
  have xr : vd'.com.r = vd2.com.r ∧ pd'.rnd.r = pd2.rnd.r := by
    have e1 : vd'.com.r = vd3.com.r := by rw [y11, z4]
    have e2 : vd3.com.r = vd2.com.r := by rw [c3]
    have e4 : pd'.rnd.r = pd3.rnd.r := by rw [y12, m4]
    have e5 : pd3.rnd.r = pd2.rnd.r := by rw [r3]
    exact ⟨e1.trans e2, e4.trans e5⟩
  have xpt2 : vd'.com.pt2 = vd2.com.pt2 ∧ pd'.rnd.pt2 = pd2.rnd.pt2 := by
    have e1 : vd'.com.pt2 = vd3.com.pt2 := by rw [y11, z4]
    have e2 : vd3.com.pt2 = vd2.com.pt2 := by rw [c3]
    have e4 : pd'.rnd.pt2 = pd3.rnd.pt2 := by rw [y12, m4]
    have e5 : pd3.rnd.pt2 = pd2.rnd.pt2 := by rw [r3]
    exact ⟨e1.trans e2, e4.trans e5⟩
  have xsk2Comp : vd'.com.sk2Comp = vd3.com.sk2Comp ∧ pd'.rnd.sk2Comp = pd3.rnd.sk2Comp :=
    ⟨by rw [y11, z4], by rw [y12, m4]⟩
  have xsk2Pad : vd'.com.sk2Pad = vd3.com.sk2Pad ∧ pd'.rnd.sk2Pad = pd3.rnd.sk2Pad :=
    ⟨by rw [y11, z4], by rw [y12, m4]⟩
  have xkCompHi : vd'.com.kCompHi = vd3.com.kCompHi ∧ pd'.rnd.kCompHi = pd3.rnd.kCompHi :=
    ⟨by rw [y11, z4], by rw [y12, m4]⟩
  have xkPadHi : vd'.com.kPadHi = vd3.com.kPadHi ∧ pd'.rnd.kPadHi = pd3.rnd.kPadHi :=
    ⟨by rw [y11, z4], by rw [y12, m4]⟩
  have xkCompLo : vd'.com.kCompLo = vd3.com.kCompLo ∧ pd'.rnd.kCompLo = pd3.rnd.kCompLo :=
    ⟨by rw [y11, z4], by rw [y12, m4]⟩
  have xkPadLo : vd'.com.kPadLo = vd3.com.kPadLo ∧ pd'.rnd.kPadLo = pd3.rnd.kPadLo :=
    ⟨by rw [y11, z4], by rw [y12, m4]⟩
  have xsk2 : vd'.com.sk2 = vd3.com.sk2 ∧ pd'.rnd.sk2 = pd3.rnd.sk2 :=
    ⟨by rw [y11, z4], by rw [y12, m4]⟩
  have hop : BlocksOpen E.base vd'.Gs vd'.Hs x x vd'.ix P.gk.kay 2 P.gk.enn P.gk.tee vd'.com pd'.rnd := by
    rw [z5, z6, z7]
    constructor
    · rw [xdCompHi.1, xdCompHi.2]; exact a1
    · rw [xdPadHi.1, xdPadHi.2]; exact a2
    · rw [xdCompLo.1, xdCompLo.2]; exact a3
    · rw [xdPadLo.1, xdPadLo.2]; exact a4
    · rw [xrComp.1, xrComp.2]; exact b1
    · rw [xrPad.1, xrPad.2]; exact b2
    · rw [xeComp1Hi.1, xeComp1Hi.2]; exact b3
    · rw [xePad1Hi.1, xePad1Hi.2]; exact b4
    · rw [xeComp1Lo.1, xeComp1Lo.2]; exact b5
    · rw [xePad1Lo.1, xePad1Lo.2]; exact b6
    · rw [xeComp2Hi.1, xeComp2Hi.2]; exact b7
    · rw [xePad2Hi.1, xePad2Hi.2]; exact b8
    · rw [xeComp2Lo.1, xeComp2Lo.2]; exact b9
    · rw [xePad2Lo.1, xePad2Lo.2]; exact b10
    · rw [xsk2Comp.1, xsk2Comp.2]; exact d1
    · rw [xsk2Pad.1, xsk2Pad.2]; exact d2
    · rw [xkCompHi.1, xkCompHi.2]; exact d3
    · rw [xkPadHi.1, xkPadHi.2]; exact d4
    · rw [xkCompLo.1, xkCompLo.2]; exact d5
    · rw [xkPadLo.1, xkPadLo.2]; exact d6
    · rw [hsk1c, hsk1r, S.key]
      unfold comG
      rw [mexp_reads _ x _ ta vd.Gs (by
        rw [coeffs_length, hI.sk1]
        rw [hL.w] at hgs
        rcases hL.sk with ⟨a, b⟩ | ⟨a, b⟩ <;> omega), coeffs_length, hI.sk1]
    · rw [xsk2.1, xsk2.2]; exact d7
    · rw [xr.1, xr.2]; exact b11
    · rw [xpt1.1, xpt1.2]; exact a5
    · rw [xpt2.1, xpt2.2]; exact b12
    · have := y10 x (by rw [z9]; exact rd4)
      rw [this, z9, z4]
      exact congrArg (fun gs => comG E.base gs x vd.ix.y 128 pd'.rnd.y) g3
  have hne : vd'.linConstr ≠ [] := by
    intro e
    have := S5.lin
    rw [e] at this
    simp at this
  refine ⟨S5.layout, S5.small, S5.gs, S5.hs, hne, fun c hc => (hlin c hc).1,
    fun c hc => by rw [z5]; exact (hlin c hc).2.1, fun c hc => (hlin c hc).2.2, hnl, ?_, ?_, ?_, ?_, hop⟩
  · intro k hk
    have := hnorm k (by omega)
    rw [List.getElem?_eq_getElem hk, Option.some.injEq] at this
    rw [this]
  · intro c hc
    obtain ⟨k, hk, rfl⟩ := List.mem_iff_getElem.1 hc
    have := hnorm k (by omega)
    rw [List.getElem?_eq_getElem hk, Option.some.injEq] at this
    rw [this]
    rcases (hb k (by omega)).exact with h | h
    · exact normExact_sat h
    · exact absurd ⟨k, by omega, h⟩ hpf
  · rw [hx, z5]
    exact keys_eq_range S5.linWitness hkeys
  · rw [keys_eq_range S5.quadWitness hqk]
    refine tab_congr fun j hj => ?_
    rw [List.mem_range] at hj
    have := (hb (j / 260) (by omega)).quad (j % 260) (Nat.mod_lt _ (by norm_num))
    rw [Nat.div_add_mod] at this
    rw [hq3, this]

end
end Verif
