/-
When the functions that record the constraints of the Regev proofs return, throw or are undefined.
-/
import Verif.Lemmas.RegevSmallRun
import Verif.Lemmas.RegevKeyRun
import Verif.Lemmas.RegevEncRun

namespace Verif
open Spec Regev
open scoped BigOperators

section
variable {q : ℕ} [Fact q.Prime] {G : Type} [AddCommGroup G] [Module (ZMod q) G]

theorem normSq_le_of_forall (B : ℤ) : ∀ (l : List (ZMod q)), (∀ s ∈ l, s.valMinAbs ^ 2 ≤ B) →
    normSq l ≤ l.length * B := by
  intro l
  induction l with
  | nil => intro _; simp [normSq]
  | cons a l ih =>
    intro h
    have h1 := h a (by simp)
    have h2 := ih fun s hs => h s (by simp [hs])
    have e : normSq (a :: l) = a.valMinAbs ^ 2 + normSq l := by simp [normSq]
    rw [e, List.length_cons]
    push_cast
    linarith

theorem digits_total (P : Params q) (hP : ParamsOk P) (v : EVec q 2) (hv : v.length = 128) :
    ∃ hi lo, breakTwoDigits v P.radix = .ok (hi, lo) ∧ hi.length = 128 ∧ lo.length = 128 ∧
      normSq (coeffs lo) ≤ loBound P ^ 2 := by
  have hq : NeZero q := ⟨(Fact.out : q.Prime).ne_zero⟩
  have hr := hP.radix
  have hs := (hP.small 1 (by norm_num)).1
  have hb : normBound P 1 = P.radix * 16 := rfl
  rw [hb, abs_of_nonneg (by omega)] at hs
  obtain ⟨hi, lo, h1, h2, h3, h4⟩ := Props.C36_digits v P.radix hr (by omega)
  refine ⟨hi, lo, h1, by omega, by omega, ?_⟩
  have := normSq_le_of_forall (P.radix ^ 2) (coeffs lo) ?_
  · rw [coeffs_length] at this
    have e : loBound P = P.radix * 16 := rfl
    rw [e]
    have h128 : ((lo.length * 2 : ℕ) : ℤ) = 256 := by rw [h3, hv]; norm_num
    rw [h128] at this
    nlinarith
  · intro s hs
    obtain ⟨e, he, hs⟩ := List.mem_flatMap.1 hs
    obtain ⟨i, hi', rfl⟩ := List.mem_iff_getElem.1 he
    obtain ⟨h, l, e1, e2, e3⟩ := h4 i _ (List.getElem?_eq_getElem (by omega))
    rw [List.getElem?_eq_getElem hi'] at e2
    obtain rfl := Option.some.inj e2
    obtain ⟨j, rfl⟩ := (List.mem_ofFn' _ _).1 hs
    obtain ⟨-, f1, f2, -⟩ := e3 j
    nlinarith

theorem padTo_cases {t : Tests} (hP : NoFalsePrimes t.probPrime) {comp : EVec q 2} {bound : ℤ}
    (hc : comp.length = 128) (hb : 2 * |bound| < q) :
    (normSq (coeffs comp) ≤ bound ^ 2 →
      ∃ p, padTo t comp bound = .ok p ∧ p.comp.length = 128 ∧ p.pad.length = 2) ∧
    (¬ normSq (coeffs comp) ≤ bound ^ 2 → padTo t comp bound = .throw) := by
  have hne : comp ≠ [] := by rintro rfl; simp at hc
  constructor
  · intro h
    obtain ⟨p, hp⟩ := (padTo_total hP hne hb).2 h
    obtain ⟨h1, h2, -⟩ := padTo_ok hP hne hb hp
    exact ⟨p, hp, by rw [h1, hc], h2⟩
  · intro h
    unfold padTo
    rw [Props.C32_elements_throws t.single t.probPrime comp bound hne (by omega)]
    rfl

theorem commitE_total {base : G} {v : EVec q 2} {off : ℕ} {Gs : List G} {r : ZMod q}
    (hl : off + v.length * 2 ≤ Gs.length) :
    commitE base v off Gs r = .ok (r • base + mexp (coeffs v) (Gs.drop off)) := by
  have he : commitE base v off Gs r = commitE base v off Gs r 0 (some v.length) := rfl
  rw [he, (Props.C56_elements base v off Gs r 0 v.length (by omega) le_rfl).1 (by omega), List.take_length,
    List.drop_zero]

theorem commit2E_total {base : G} {v : EVec q 2} {off : ℕ} {Gs Hs : List G} {r : ZMod q}
    (hl : off + v.length * 2 ≤ Gs.length) (hl' : off + v.length * 2 ≤ Hs.length) :
    ∃ c, commit2E base v off Gs Hs r = .ok c := by
  have he : commit2E base v off Gs Hs r = commit2E base v off Gs Hs r 0 (some v.length) := rfl
  rw [he, (Props.C56_double base v off Gs Hs r 0 v.length (by omega) le_rfl).1 (by omega) (by omega)]
  exact ⟨_, rfl⟩

theorem commitPair_total {base : G} {Gs Hs : List G} {p : Padded q} {k : ℕ} {r r' : ZMod q}
    (hk : k < 10) (hc : p.comp.length = 128) (hp : p.pad.length = 2)
    (hG : 2600 ≤ Gs.length) (hH : 2600 ≤ Hs.length) :
    ∃ c, commitPair base Gs Hs p (260 * k) (260 * k + 256) r r' = .ok c := by
  unfold commitPair
  obtain ⟨c, h1⟩ := commit2E_total (base := base) (v := p.comp) (off := 260 * k) (r := r)
    (Gs := Gs) (Hs := Hs) (by omega) (by omega)
  obtain ⟨d, h2⟩ := commit2E_total (base := base) (v := p.pad) (off := 260 * k + 256) (r := r')
    (Gs := Gs) (Hs := Hs) (by omega) (by omega)
  rw [h1, Res.ok_bind, h2, Res.ok_bind]
  exact ⟨_, rfl⟩

theorem eq_compressLeft {n m : ℕ} {v w : EVec q 2} {ρ : ℕ → ℕ → Elt (ZMod q) 2} (h : w.length = m)
    (h' : ∀ j < m, w.getD j 0 = ∑ i ∈ Finset.range n, v.getD i 0 * ρ i j) : w = compressLeft n m v ρ := by
  unfold compressLeft
  apply List.ext_getElem
  · simp [h]
  · intro i h1 h2
    rw [List.getElem_map, List.getElem_range, ← h' i (by omega), getD_of_lt w h1]

theorem eq_compressRight {n m : ℕ} {v w : EVec q 2} {ρ : ℕ → ℕ → Elt (ZMod q) 2} (h : w.length = n)
    (h' : ∀ i < n, w.getD i 0 = ∑ j ∈ Finset.range m, ρ i j * v.getD j 0) : w = compressRight n m ρ v := by
  unfold compressRight
  apply List.ext_getElem
  · simp [h]
  · intro i h1 h2
    rw [List.getElem_map, List.getElem_range, ← h' i (by omega), getD_of_lt w h1]

theorem throw_bind {α β : Type} (f : α → Res β) : ((Res.throw : Res α) >>= f) = .throw := rfl
theorem ub_bind {α β : Type} (f : α → Res β) : ((Res.ub : Res α) >>= f) = .ub := rfl

theorem bind_total {α β : Type} {x : Res α} {f : α → Res β} (h : ∃ a, x = .ok a)
    (h' : ∀ a, ∃ r, f a = .ok r) : ∃ r, (x >>= f) = .ok r := by
  obtain ⟨a, rfl⟩ := h
  exact h' a

theorem newElement_total {E : Env (ZMod q) G} (hE : LengthOk E) (st : E.St) (l : Bytes) :
    ∃ p, newElement E st l = .ok p := ⟨_, newElement_eq hE st l⟩

theorem dec_total {E : Env (ZMod q) G} (hE : LengthOk E) {P : Params q} (hP : ParamsOk P)
    {tests : ℕ → Tests} (hT : ∀ k, NoFalsePrimes (tests k).probPrime) {fresh : Blocks (ZMod q)}
    {vd : VerifierData (ZMod q) G E.St} {pd : ProverData (ZMod q)} (S : Setup P vd pd)
    {ctMat : EMat q 2} {ctVec : EVec q 2} {ptxt : List (ZMod q)} {skey noise : EVec q 2}
    (hM : HasShape ctMat P.gk.kay P.gk.tee) (hV : ctVec.length = P.gk.tee)
    (hpt : ptxt.length = P.gk.tee) (hno : noise.length = P.gk.tee)
    (c : G) (hc : c = fresh.pt1 • E.base + mexp ptxt (vd.Gs.drop vd.ix.pt1)) :
    ∃ hi lo, breakTwoDigits (compressLeft P.gk.tee 128 noise
        (decChallenges E vd.mer P.gk.tee { vd.com with pt1 := c }).1) P.radix = .ok (hi, lo) ∧
      (Fits P 0 hi → ∃ r, proveDecryption E P fresh tests vd pd ctMat ctVec ptxt skey noise = .ok r) ∧
      (¬ Fits P 0 hi → proveDecryption E P fresh tests vd pd ctMat ctVec ptxt skey noise = .throw) := by
  have hL := lay_of S.layout
  have hGs := S.gs
  have hHs := S.hs
  unfold proveDecryption
  simp only
  rw [(Props.C56_scalars E.base ptxt vd.ix.pt1 vd.Gs fresh.pt1).1 (by rw [hpt, hL.pt1]; rw [hL.w] at hGs; omega),
    Res.ok_bind, ← hc]
  obtain ⟨R, a1, hR⟩ := newTernaryE_total hE (E.processPoint vd.mer (str "RegevDecPtxt") c) (str "RegevDecX")
    (n := P.gk.tee) (m := JLDIM / 2) hP.tee (by decide) (by simp [JLDIM])
  rw [a1, Res.ok_bind]
  simp only
  obtain ⟨w, b1, b2, b3⟩ := hR.left noise hno
  rw [b1, Res.ok_bind]
  have b2' : w.length = 128 := b2
  obtain ⟨hi, lo, d1, d2, d3, d4⟩ := digits_total P hP w b2'
  rw [d1, Res.ok_bind]
  refine ⟨hi, lo, ?_, ?_, ?_⟩
  · rw [← d1]
    exact congrArg (fun v => breakTwoDigits v P.radix) (eq_compressLeft b2' b3).symm
  · intro hf
    obtain ⟨pHi, c1, c2, c3⟩ := (padTo_cases (hT 0) d2 (hP.small 0 (by norm_num)).1).1 hf
    obtain ⟨pLo, c4, c5, c6⟩ := (padTo_cases (hT 1) d3 (hP.small 1 (by norm_num)).1).1 d4
    have c1' : padTo (tests 0) hi (hiBound P P.B_dNoise (P.gk.kay * 2)) = .ok pHi := c1
    have c4' : padTo (tests 1) lo (loBound P) = .ok pLo := c4
    simp only
    rw [c1', Res.ok_bind, c4', Res.ok_bind]
    have hG : 2600 ≤ vd.Gs.length := by rw [hL.w] at hGs; omega
    obtain ⟨e1, f1⟩ := commitPair_total (base := E.base) (r := fresh.dCompHi) (r' := fresh.dPadHi)
      (k := 0) (by norm_num) c2 c3 hG (by omega : 2600 ≤ vd.Hs.length)
    obtain ⟨e2, f2⟩ := commitPair_total (base := E.base) (r := fresh.dCompLo) (r' := fresh.dPadLo)
      (k := 1) (by norm_num) c5 c6 hG (by omega : 2600 ≤ vd.Hs.length)
    have hN : NormInv vd.normConstr := ⟨S.normLength, S.norm⟩
    have hsl := fun ξ => onSlot_says (cs := vd.linConstr) (s := 0) (by have := S.lin; omega)
      (decConstraints_spec P (w := vd.ix.w) hR ξ hP.kay hM hV
        (by rw [hL.dCompLo, hL.w]; omega) (by rw [hL.dCompHi, hL.w]; omega)
        (by rw [hL.w]; rcases hL.sk with h | h <;> omega) (by rw [hL.pt1, hL.w]; omega)
        (by rw [List.drop_zero]; have := S.lin; omega))
    rw [hL.dCompHi, hL.dPadHi, hL.dCompLo, hL.dPadLo, f1, Res.ok_bind, f2, Res.ok_bind]
    refine bind_total (newElement_total hE _ _) ?_
    rintro ⟨ξ, m⟩
    simp only
    rw [power128, Res.ok_bind]
    obtain ⟨out, g1, -, -⟩ := hsl ξ
    rw [g1, Res.ok_bind, setNorm_eq hN (by norm_num), Res.ok_bind, setNorm_eq (hN.set 0 _) (by norm_num),
      Res.ok_bind]
    obtain ⟨o1, k1, k2, -⟩ := copyPair_spec S.compressed (k := 0) (by norm_num) c2 c3
    obtain ⟨o2, k3, -, -⟩ := copyPair_spec k2 (k := 1) (by norm_num) c5 c6
    rw [k1, Res.ok_bind, k3, Res.ok_bind]
    exact ⟨_, rfl⟩
  · intro hf
    have c1 : padTo (tests 0) hi (hiBound P P.B_dNoise (P.gk.kay * 2)) = .throw :=
      (padTo_cases (hT 0) d2 (hP.small 0 (by norm_num)).1).2 hf
    simp only
    rw [c1, throw_bind]

theorem enc_total {E : Env (ZMod q) G} (hE : LengthOk E) {P : Params q} (hP : ParamsOk P)
    {tests : ℕ → Tests} (hT : ∀ k, NoFalsePrimes (tests k).probPrime) {fresh : Blocks (ZMod q)}
    {vd : VerifierData (ZMod q) G E.St} {pd : ProverData (ZMod q)} (S : Setup P vd pd)
    (h6 : SlotOk vd.linConstr 6 vd.ix.w)
    {ct1 ct2 : EVec q 2} {ptxt : List (ZMod q)} {rnd noise1 noise2 : EVec q 2}
    (hc1 : ct1.length = P.gk.kay) (hc2 : ct2.length = P.gk.enn)
    (hpt : ptxt.length = P.gk.enn) (hr : rnd.length = P.gk.kay)
    (hn1 : noise1.length = P.gk.kay) (hn2 : noise2.length = P.gk.enn)
    (c d : G) (hc : c = fresh.pt2 • E.base + mexp ptxt (vd.Gs.drop vd.ix.pt2))
    (hd : d = fresh.r • E.base + mexp (coeffs rnd) (vd.Gs.drop vd.ix.r))
    (C : EncChallenges q E.St)
    (hC : C = encChallenges E vd.mer P.gk.kay P.gk.enn { vd.com with pt2 := c, r := d }) :
    (¬ (4 ∣ P.gk.kay ∧ 4 ∣ P.gk.enn) →
      proveEncryption E P fresh tests vd pd ct1 ct2 ptxt rnd noise1 noise2 = .ub) ∧
    (4 ∣ P.gk.kay ∧ 4 ∣ P.gk.enn → ∃ hi1 lo1 hi2 lo2,
      breakTwoDigits (compressRight 128 P.gk.kay C.R1 noise1) P.radix = .ok (hi1, lo1) ∧
      breakTwoDigits (compressRight 128 P.gk.enn C.R2 noise2) P.radix = .ok (hi2, lo2) ∧
      (Fits P 2 (compressRight 128 P.gk.kay C.R3 rnd) ∧ Fits P 3 hi1 ∧ Fits P 5 hi2 →
        ∃ r, proveEncryption E P fresh tests vd pd ct1 ct2 ptxt rnd noise1 noise2 = .ok r) ∧
      (¬ (Fits P 2 (compressRight 128 P.gk.kay C.R3 rnd) ∧ Fits P 3 hi1 ∧ Fits P 5 hi2) →
        proveEncryption E P fresh tests vd pd ct1 ct2 ptxt rnd noise1 noise2 = .throw)) := by
  have hL := lay_of S.layout
  have hGs := S.gs
  have hHs := S.hs
  have hlin := S.lin
  unfold proveEncryption
  simp only
  rw [(Props.C56_scalars E.base ptxt vd.ix.pt2 vd.Gs fresh.pt2).1 (by rw [hpt, hL.pt2]; rw [hL.w] at hGs; omega),
    Res.ok_bind, commitE_total (by rw [hr, hL.r]; rw [hL.w] at hGs; omega), Res.ok_bind, ← hc, ← hd]
  refine ⟨fun h4 => ?_, ?_⟩
  · by_cases hk : 4 ∣ P.gk.kay
    · obtain ⟨R, a1, -⟩ := newTernaryE_total hE (E.processPoint (E.processPoint vd.mer (str "RegevEncPtxt") c)
        (str "RegevEncRnd") d) (str "RegevEncR1") (n := JLDIM / 2) (m := P.gk.kay) (by decide) hP.kay
        (by simp [JLDIM]; omega)
      rw [a1, Res.ok_bind]
      simp only
      rw [newTernaryE_ub hE _ _ (by decide) hP.enn (by
        have : ¬ 4 ∣ P.gk.enn := fun h => h4 ⟨hk, h⟩
        simp only [JLDIM]; omega), ub_bind]
    · rw [newTernaryE_ub hE _ _ (by decide) hP.kay (by simp only [JLDIM]; omega), ub_bind]
  · rintro ⟨hk, hn⟩
    obtain ⟨R1, a1, hR1⟩ := newTernaryE_total hE (E.processPoint (E.processPoint vd.mer (str "RegevEncPtxt") c)
      (str "RegevEncRnd") d) (str "RegevEncR1") (n := JLDIM / 2) (m := P.gk.kay) (by decide) hP.kay
      (by simp [JLDIM]; omega)
    rw [a1, Res.ok_bind]
    simp only
    obtain ⟨R2, a2, hR2⟩ := newTernaryE_total hE _ (str "RegevEncR2") (n := JLDIM / 2) (m := P.gk.enn)
      (by decide) hP.enn (by simp [JLDIM]; omega)
    rw [a2, Res.ok_bind]
    simp only
    obtain ⟨R3, a3, hR3⟩ := newTernaryE_total hE _ (str "RegevEncR3") (n := JLDIM / 2) (m := P.gk.kay)
      (by decide) hP.kay (by simp [JLDIM]; omega)
    rw [a3, Res.ok_bind]
    simp only
    obtain ⟨v1, b1, b2, b3⟩ := hR1.right noise1 hn1
    obtain ⟨v2, b4, b5, b6⟩ := hR2.right noise2 hn2
    obtain ⟨v3, b7, b8, b9⟩ := hR3.right rnd hr
    have e1 : v1 = compressRight 128 P.gk.kay C.R1 noise1 := by rw [hC]; exact eq_compressRight b2 b3
    have e2 : v2 = compressRight 128 P.gk.enn C.R2 noise2 := by rw [hC]; exact eq_compressRight b5 b6
    have e3 : v3 = compressRight 128 P.gk.kay C.R3 rnd := by rw [hC]; exact eq_compressRight b8 b9
    rw [← e1, ← e2, ← e3, b1, Res.ok_bind, b4, Res.ok_bind, b7, Res.ok_bind]
    have b8' : v3.length = 128 := b8
    obtain ⟨hi1, lo1, d1, d2, d3, d4⟩ := digits_total P hP v1 b2
    obtain ⟨hi2, lo2, d5, d6, d7, d8⟩ := digits_total P hP v2 b5
    rw [d1, Res.ok_bind, d5, Res.ok_bind]
    refine ⟨hi1, lo1, hi2, lo2, rfl, rfl, ?_⟩
    simp only
    have p2 := padTo_cases (hT 2) b8' (hP.small 2 (by norm_num)).1
    have p3 := padTo_cases (hT 3) d2 (hP.small 3 (by norm_num)).1
    have p5 := padTo_cases (hT 5) d6 (hP.small 5 (by norm_num)).1
    obtain ⟨q4, c10, c11, c12⟩ := (padTo_cases (hT 4) d3 (hP.small 4 (by norm_num)).1).1 d4
    obtain ⟨q6, c13, c14, c15⟩ := (padTo_cases (hT 6) d7 (hP.small 6 (by norm_num)).1).1 d8
    have c10' : padTo (tests 4) lo1 (loBound P) = .ok q4 := c10
    have c13' : padTo (tests 6) lo2 (loBound P) = .ok q6 := c13
    have n2 : normBound P 2 = P.B_r := rfl
    have n3 : normBound P 3 = hiBound P P.B_eNoise1 (P.gk.kay * 2) := rfl
    have n5 : normBound P 5 = hiBound P P.B_eNoise2 (P.gk.enn * 2) := rfl
    rw [n2] at p2
    rw [n3] at p3
    rw [n5] at p5
    unfold Fits
    rw [n2, n3, n5]
    by_cases f2 : normSq (coeffs v3) ≤ P.B_r ^ 2
    swap
    · rw [p2.2 f2, throw_bind]
      exact ⟨fun h => absurd h.1 f2, fun _ => rfl⟩
    obtain ⟨q2, c1, c2, c3⟩ := p2.1 f2
    rw [c1, Res.ok_bind]
    by_cases f3 : normSq (coeffs hi1) ≤ hiBound P P.B_eNoise1 (P.gk.kay * 2) ^ 2
    swap
    · rw [p3.2 f3, throw_bind]
      exact ⟨fun h => absurd h.2.1 f3, fun _ => rfl⟩
    obtain ⟨q3, c4, c5, c6⟩ := p3.1 f3
    rw [c4, Res.ok_bind, c10', Res.ok_bind]
    by_cases f5 : normSq (coeffs hi2) ≤ hiBound P P.B_eNoise2 (P.gk.enn * 2) ^ 2
    swap
    · rw [p5.2 f5, throw_bind]
      exact ⟨fun h => absurd h.2.2 f5, fun _ => rfl⟩
    refine ⟨fun _ => ?_, fun h => absurd ⟨f2, f3, f5⟩ h⟩
    obtain ⟨q5, c7, c8, c9⟩ := p5.1 f5
    rw [c7, Res.ok_bind, c13', Res.ok_bind]
    have hG : 2600 ≤ vd.Gs.length := by rw [hL.w] at hGs; omega
    have hH : 2600 ≤ vd.Hs.length := by omega
    obtain ⟨g2, k2⟩ := commitPair_total (base := E.base) (r := fresh.rComp) (r' := fresh.rPad)
      (k := 2) (by norm_num) c2 c3 hG hH
    obtain ⟨g3, k3⟩ := commitPair_total (base := E.base) (r := fresh.eComp1Hi) (r' := fresh.ePad1Hi)
      (k := 3) (by norm_num) c5 c6 hG hH
    obtain ⟨g4, k4⟩ := commitPair_total (base := E.base) (r := fresh.eComp1Lo) (r' := fresh.ePad1Lo)
      (k := 4) (by norm_num) c11 c12 hG hH
    obtain ⟨g5, k5⟩ := commitPair_total (base := E.base) (r := fresh.eComp2Hi) (r' := fresh.ePad2Hi)
      (k := 5) (by norm_num) c8 c9 hG hH
    obtain ⟨g6, k6⟩ := commitPair_total (base := E.base) (r := fresh.eComp2Lo) (r' := fresh.ePad2Lo)
      (k := 6) (by norm_num) c14 c15 hG hH
    have hN : NormInv vd.normConstr := ⟨S.normLength, S.norm⟩
    obtain ⟨l1, s1, s2, s3⟩ := onSlot_spec (cs := vd.linConstr) (s := 2) (by omega)
      (resetSlot_spec (vd.linConstr.drop 2) (by simp; omega))
    have t1 := s3.1
    obtain ⟨l2, s4, s5, s6⟩ := onSlot_spec (cs := l1) (s := 4) (by omega)
      (resetSlot_spec (l1.drop 4) (by simp; omega))
    have t2 := s6.1
    have hs1 := fun ξ => onSlot_says (cs := l2) (s := 2) (by omega)
      (encConstraints1_spec P (w := vd.ix.w) rfl hR1 ξ hP.A hc1
        (by rw [hL.eComp1Lo, hL.w]; omega) (by rw [hL.eComp1Hi, hL.w]; omega) (by rw [hL.r, hL.w]; omega)
        (fun k hk => hk.elim) (s2.other s6 (by omega)))
    rw [hL.rComp, hL.rPad, hL.eComp1Hi, hL.ePad1Hi, hL.eComp1Lo, hL.ePad1Lo, hL.eComp2Hi, hL.ePad2Hi,
      hL.eComp2Lo, hL.ePad2Lo, k2, Res.ok_bind, k3, Res.ok_bind, k4, Res.ok_bind, k5, Res.ok_bind, k6,
      Res.ok_bind, s1, Res.ok_bind, s4, Res.ok_bind]
    refine bind_total (newElement_total hE _ _) ?_
    rintro ⟨ξ1, m1⟩
    simp only
    rw [power128, Res.ok_bind]
    obtain ⟨l3, u1, u2, u3⟩ := hs1 ξ1
    have t3 := u3.1
    rw [u1, Res.ok_bind]
    refine bind_total (newElement_total hE _ _) ?_
    rintro ⟨ξ2, m2⟩
    simp only
    rw [power128, Res.ok_bind]
    obtain ⟨l4, u4, u5, u6⟩ := onSlot_says (cs := l3) (s := 4) (by omega)
      (encConstraints2_spec P (w := vd.ix.w) rfl hR2 ξ2 hP.B hc2
        (by rw [hL.eComp2Lo, hL.w]; omega) (by rw [hL.eComp2Hi, hL.w]; omega) (by rw [hL.r, hL.w]; omega)
        (by rw [hL.pt2, hL.w]; omega)
        (fun k hk => hk.elim) (s5.other u3 (by omega)))
    have t4 := u6.1
    rw [u4, Res.ok_bind]
    refine bind_total (newElement_total hE _ _) ?_
    rintro ⟨ξ3, m3⟩
    simp only
    rw [power128, Res.ok_bind]
    have p6 := (((slot_pair (by omega) h6).other s3 (by omega)).other s6 (by omega)).other u3 (by omega) |>.other u6
      (by omega)
    obtain ⟨l5, u7, u8, u9⟩ := onSlot_says (cs := l4) (s := 6) (by omega)
      (encConstraints3_spec (w := vd.ix.w) hR3 ξ3
        (by rw [hL.rComp, hL.w]; omega) (by rw [hL.r, hL.w]; omega)
        (fun k hk => hk) p6)
    rw [u7, Res.ok_bind]
    rw [setNorm_eq hN (by norm_num), Res.ok_bind, setNorm_eq (hN.set 2 _) (by norm_num), Res.ok_bind,
      setNorm_eq ((hN.set 2 _).set 3 _) (by norm_num), Res.ok_bind,
      setNorm_eq (((hN.set 2 _).set 3 _).set 4 _) (by norm_num), Res.ok_bind,
      setNorm_eq ((((hN.set 2 _).set 3 _).set 4 _).set 5 _) (by norm_num), Res.ok_bind]
    obtain ⟨z1, y1, y2, -⟩ := copyPair_spec S.compressed (k := 2) (by norm_num) c2 c3
    obtain ⟨z2, y4, y5, -⟩ := copyPair_spec y2 (k := 3) (by norm_num) c5 c6
    obtain ⟨z3, y7, y8, -⟩ := copyPair_spec y5 (k := 4) (by norm_num) c11 c12
    obtain ⟨z4, y10, y11, -⟩ := copyPair_spec y8 (k := 5) (by norm_num) c8 c9
    obtain ⟨z5, y13, -, -⟩ := copyPair_spec y11 (k := 6) (by norm_num) c14 c15
    rw [y1, Res.ok_bind, y4, Res.ok_bind, y7, Res.ok_bind, y10, Res.ok_bind, y13, Res.ok_bind]
    exact ⟨_, rfl⟩

theorem key_total {E : Env (ZMod q) G} (hE : LengthOk E) {P : Params q} (hP : ParamsOk P)
    {tests : ℕ → Tests} (hT : ∀ k, NoFalsePrimes (tests k).probPrime) {fresh : Blocks (ZMod q)}
    {vd : VerifierData (ZMod q) G E.St} {pd : ProverData (ZMod q)} (S : Setup P vd pd)
    {pkNum : ℕ} {skey noise : EVec q 2} (hs : skey.length = P.gk.kay) (hno : noise.length = P.gk.kay)
    (c : G) (hc : c = fresh.sk2 • E.base + mexp (coeffs skey) (vd.Gs.drop vd.ix.sk2))
    (C : KeyChallenges q E.St) (hC : C = keyChallenges E vd.mer P.gk.kay { vd.com with sk2 := c }) :
    ∃ hi lo, breakTwoDigits (compressLeft P.gk.kay 128 noise C.R1) P.radix = .ok (hi, lo) ∧
      (¬ (Fits P 7 (compressLeft P.gk.kay 128 skey C.R2) ∧ Fits P 8 hi) →
        proveKeyGen E P fresh tests vd pd pkNum skey noise = .throw) ∧
      (Fits P 7 (compressLeft P.gk.kay 128 skey C.R2) ∧ Fits P 8 hi →
        (pkNum < P.gk.enn → ∃ r, proveKeyGen E P fresh tests vd pd pkNum skey noise = .ok r) ∧
        (P.gk.enn ≤ pkNum → proveKeyGen E P fresh tests vd pd pkNum skey noise = .ub)) := by
  have hL := lay_of S.layout
  have hGs := S.gs
  have hHs := S.hs
  have hlin := S.lin
  unfold proveKeyGen
  simp only
  rw [commitE_total (by rw [hs]; rw [hL.w] at hGs; rcases hL.sk with h | h <;> omega), Res.ok_bind, ← hc]
  obtain ⟨R1, a1, hR1⟩ := newTernaryE_total hE (E.processPoint vd.mer (str "RegevSK") c) (str "RegevKeyGenR1")
    (n := P.gk.kay) (m := JLDIM / 2) hP.kay (by decide) (by simp [JLDIM])
  rw [a1, Res.ok_bind]
  simp only
  obtain ⟨R2, a2, hR2⟩ := newTernaryE_total hE _ (str "RegevKeyGenR2")
    (n := P.gk.kay) (m := JLDIM / 2) hP.kay (by decide) (by simp [JLDIM])
  rw [a2, Res.ok_bind]
  simp only
  obtain ⟨v1, b1, b2, b3⟩ := hR1.left noise hno
  obtain ⟨v2, b4, b5, b6⟩ := hR2.left skey hs
  have e1 : v1 = compressLeft P.gk.kay 128 noise C.R1 := by rw [hC]; exact eq_compressLeft b2 b3
  have e2 : v2 = compressLeft P.gk.kay 128 skey C.R2 := by rw [hC]; exact eq_compressLeft b5 b6
  rw [← e1, ← e2, b1, Res.ok_bind, b4, Res.ok_bind]
  have b5' : v2.length = 128 := b5
  obtain ⟨hi, lo, d1, d2, d3, d4⟩ := digits_total P hP v1 b2
  rw [d1, Res.ok_bind]
  refine ⟨hi, lo, rfl, ?_⟩
  simp only
  have p7 := padTo_cases (hT 7) b5' (hP.small 7 (by norm_num)).1
  have p8 := padTo_cases (hT 8) d2 (hP.small 8 (by norm_num)).1
  obtain ⟨q9, c10, c11, c12⟩ := (padTo_cases (hT 9) d3 (hP.small 9 (by norm_num)).1).1 d4
  have c10' : padTo (tests 9) lo (loBound P) = .ok q9 := c10
  have n7 : normBound P 7 = P.B_sk := rfl
  have n8 : normBound P 8 = hiBound P P.B_kNoise (P.gk.kay * 2) := rfl
  rw [n7] at p7
  rw [n8] at p8
  unfold Fits
  rw [n7, n8]
  by_cases f7 : normSq (coeffs v2) ≤ P.B_sk ^ 2
  swap
  · rw [p7.2 f7, throw_bind]
    exact ⟨fun _ => rfl, fun h => absurd h.1 f7⟩
  obtain ⟨q7, c1, c2, c3⟩ := p7.1 f7
  rw [c1, Res.ok_bind]
  by_cases f8 : normSq (coeffs hi) ≤ hiBound P P.B_kNoise (P.gk.kay * 2) ^ 2
  swap
  · rw [p8.2 f8, throw_bind]
    exact ⟨fun _ => rfl, fun h => absurd h.2 f8⟩
  obtain ⟨q8, c4, c5, c6⟩ := p8.1 f8
  rw [c4, Res.ok_bind, c10', Res.ok_bind]
  refine ⟨fun h => absurd ⟨f7, f8⟩ h, fun _ => ?_⟩
  have hG : 2600 ≤ vd.Gs.length := by rw [hL.w] at hGs; omega
  have hH : 2600 ≤ vd.Hs.length := by omega
  obtain ⟨g2, k2⟩ := commitPair_total (base := E.base) (r := fresh.sk2Comp) (r' := fresh.sk2Pad)
    (k := 7) (by norm_num) c2 c3 hG hH
  obtain ⟨g3, k3⟩ := commitPair_total (base := E.base) (r := fresh.kCompHi) (r' := fresh.kPadHi)
    (k := 8) (by norm_num) c5 c6 hG hH
  obtain ⟨g4, k4⟩ := commitPair_total (base := E.base) (r := fresh.kCompLo) (r' := fresh.kPadLo)
    (k := 9) (by norm_num) c11 c12 hG hH
  have hN : NormInv vd.normConstr := ⟨S.normLength, S.norm⟩
  obtain ⟨l1, s1, s2, s3⟩ := onSlot_spec (cs := vd.linConstr) (s := 8) (by omega)
    (resetSlot_spec (vd.linConstr.drop 8) (by simp; omega))
  have t1 := s3.1
  obtain ⟨l2, s4, s5, s6⟩ := onSlot_spec (cs := l1) (s := 10) (by omega)
    (resetSlot_spec (l1.drop 10) (by simp; omega))
  have t2 := s6.1
  rw [hL.sk2Comp, hL.sk2Pad, hL.kCompHi, hL.kPadHi, hL.kCompLo, hL.kPadLo, k2, Res.ok_bind, k3, Res.ok_bind,
    k4, Res.ok_bind, s1, Res.ok_bind, s4, Res.ok_bind]
  rw [newElement_eq hE, Res.ok_bind]
  simp only
  rw [power128, Res.ok_bind]
  constructor
  · intro hpk
    have hlt : pkNum < P.gk.B.length := by rw [hP.B.1]; exact hpk
    rw [rd_ok hlt, Res.ok_bind]
    obtain ⟨l3, u1, u2, u3⟩ := onSlot_says (cs := l2) (s := 8) (by omega)
      (keyConstraints1_spec P (w := vd.ix.w) rfl hR1
        (elementOf (E.challenge (E.processPoint (E.processPoint (E.processPoint (E.processPoint
          (E.processPoint (E.processPoint _ (str "RegevKeyGenSK") g2.1) [] g2.2) (str "RegevKGHi") g3.1) [] g3.2)
          (str "RegevKGHi") g4.1) [] g4.2) (str "RegevKGChallenge1") 64).1) hP.A (hP.B.2 _ (List.getElem_mem hlt))
        (by rw [hL.kCompLo, hL.w]; omega) (by rw [hL.kCompHi, hL.w]; omega)
        (by rw [hL.w]; rcases hL.sk with h | h <;> omega)
        (fun k hk => hk.elim) (s2.other s6 (by omega)))
    have t3 := u3.1
    rw [u1, Res.ok_bind]
    refine bind_total (newElement_total hE _ _) ?_
    rintro ⟨ξ2, m2⟩
    simp only
    rw [power128, Res.ok_bind]
    obtain ⟨l4, u4, u5, u6⟩ := onSlot_says (cs := l3) (s := 10) (by omega)
      (keyConstraints2_spec (w := vd.ix.w) hR2 ξ2
        (by rw [hL.sk2Comp, hL.w]; omega) (by rw [hL.w]; rcases hL.sk with h | h <;> omega)
        (fun k hk => hk.elim) (s5.other u3 (by omega)))
    rw [u4, Res.ok_bind]
    rw [setNorm_eq hN (by norm_num), Res.ok_bind, setNorm_eq (hN.set 7 _) (by norm_num), Res.ok_bind,
      setNorm_eq ((hN.set 7 _).set 8 _) (by norm_num), Res.ok_bind]
    obtain ⟨z1, y1, y2, -⟩ := copyPair_spec S.compressed (k := 7) (by norm_num) c2 c3
    obtain ⟨z2, y4, y5, -⟩ := copyPair_spec y2 (k := 8) (by norm_num) c5 c6
    obtain ⟨z3, y7, -, -⟩ := copyPair_spec y5 (k := 9) (by norm_num) c11 c12
    rw [y1, Res.ok_bind, y4, Res.ok_bind, y7, Res.ok_bind]
    exact ⟨_, rfl⟩
  · intro hpk
    have hrd : rd P.gk.B pkNum = .ub := by
      unfold rd
      rw [List.getElem?_eq_none (by rw [hP.B.1]; exact hpk)]
    rw [hrd, ub_bind]

theorem lInfty_le (v : EVec q 2) (B : ℤ) (hB : 0 ≤ B) :
    lInftyNorm v ≤ B ↔ ∀ s ∈ coeffs v, |s.valMinAbs| ≤ B := by
  have hq : NeZero q := ⟨(Fact.out : q.Prime).ne_zero⟩
  have key : ∀ (l : List (ZMod q)) (r : ℤ),
      l.foldl (fun ret s => if ret < |balanced s| then |balanced s| else ret) r ≤ B ↔
        r ≤ B ∧ ∀ s ∈ l, |s.valMinAbs| ≤ B := by
    intro l
    induction l with
    | nil => intro r; simp
    | cons a l ih =>
      intro r
      rw [List.foldl_cons, ih, List.forall_mem_cons, balanced_eq]
      by_cases h : r < |a.valMinAbs|
      · rw [if_pos h]
        constructor
        · rintro ⟨h1, h2⟩; exact ⟨by omega, h1, h2⟩
        · rintro ⟨_, h1, h2⟩; exact ⟨h1, h2⟩
      · rw [if_neg h]
        constructor
        · rintro ⟨h1, h2⟩; exact ⟨h1, by omega, h2⟩
        · rintro ⟨h1, _, h2⟩; exact ⟨h1, h2⟩
  have he : lInftyNorm v =
      (coeffs v).foldl (fun ret s => if ret < |balanced s| then |balanced s| else ret) 0 := rfl
  rw [he, key]
  exact ⟨fun h => h.2, fun h => ⟨hB, h⟩⟩

theorem smallLoop_step {E : Env (ZMod q) G} (hE : LengthOk E) {P : Params q} {ix : Indexes} {Gs : List G}
    {mer : E.St} {compressed : EVec q 2} {rnd : ℕ → SmallRnd q} (hc : compressed.length = 1300)
    (hB : 0 ≤ P.B_smallness) (hG : ix.y + 128 ≤ Gs.length) (k t : ℕ) :
    (SmallAccepted E P mer ix Gs compressed rnd t →
      ∃ r, smallLoop E P ix Gs mer compressed rnd t (k + 1) = .ok r) ∧
    (¬ SmallAccepted E P mer ix Gs compressed rnd t →
      smallLoop E P ix Gs mer compressed rnd t (k + 1) = smallLoop E P ix Gs mer compressed rnd (t + 1) k) := by
  have hy : (smallMask P rnd t).length = 64 := by simp [smallMask]
  have e : ((List.range (LINYDIM / 2)).map fun i => boundedElement P.smlnsBits ((rnd t).y i)) =
      smallMask P rnd t := rfl
  have hB' : 0 ≤ P.B_smallness.fdiv LINYDIM := Int.fdiv_nonneg hB (by norm_num)
  rw [smallLoop]
  simp only
  rw [e, commitE_total (by rw [hy]; exact hG), Res.ok_bind]
  obtain ⟨R, a1, hR⟩ := newTernaryE_total hE (E.processPoint mer (str "smallnessPf")
    ((rnd t).r • E.base + mexp (coeffs (smallMask P rnd t)) (Gs.drop ix.y))) (str "Smallness")
    (n := 10 * (JLDIM + PAD_SIZE) / 2) (m := LINYDIM / 2) (by decide) (by decide) (by decide)
  rw [a1, Res.ok_bind]
  simp only
  obtain ⟨u, b1, b2, b3⟩ := hR.left compressed hc
  rw [b1, Res.ok_bind]
  have b2' : u.length = 64 := b2
  unfold vecAdd
  rw [if_neg (by omega), Res.ok_bind]
  have hu : u = compressLeft 1300 64 compressed (matrixFrom E (absorb E mer [("smallnessPf",
      (rnd t).r • E.base + mexp (coeffs (smallMask P rnd t)) (Gs.drop ix.y))]) "Smallness" 1300 64).1 :=
    eq_compressLeft b2' b3
  have hA : (lInftyNorm u ≤ P.B_smallness.fdiv LINYDIM ∧
      lInftyNorm (List.zipWith (· + ·) u (smallMask P rnd t)) ≤ P.B_smallness) ↔
      SmallAccepted E P mer ix Gs compressed rnd t := by
    rw [lInfty_le _ _ hB', lInfty_le _ _ hB]
    unfold SmallAccepted
    simp only
    rw [← hu]
    rfl
  constructor
  · intro h
    rw [if_pos (hA.2 h)]
    exact ⟨_, rfl⟩
  · intro h
    rw [if_neg (fun h' => h (hA.1 h'))]

theorem smallLoop_total {E : Env (ZMod q) G} (hE : LengthOk E) {P : Params q} {ix : Indexes} {Gs : List G}
    {mer : E.St} {compressed : EVec q 2} {rnd : ℕ → SmallRnd q} (hc : compressed.length = 1300)
    (hB : 0 ≤ P.B_smallness) (hG : ix.y + 128 ≤ Gs.length) : ∀ k t,
    ((∃ i, t ≤ i ∧ i < t + k ∧ SmallAccepted E P mer ix Gs compressed rnd i) →
      ∃ r, smallLoop E P ix Gs mer compressed rnd t k = .ok r) ∧
    ((¬ ∃ i, t ≤ i ∧ i < t + k ∧ SmallAccepted E P mer ix Gs compressed rnd i) →
      smallLoop E P ix Gs mer compressed rnd t k = .throw) := by
  intro k
  induction k with
  | zero =>
    intro t
    exact ⟨fun ⟨i, h1, h2, _⟩ => by omega, fun _ => rfl⟩
  | succ k ih =>
    intro t
    obtain ⟨s1, s2⟩ := smallLoop_step hE (mer := mer) (rnd := rnd) hc hB hG k t
    obtain ⟨i1, i2⟩ := ih (t + 1)
    by_cases ht : SmallAccepted E P mer ix Gs compressed rnd t
    · exact ⟨fun _ => s1 ht, fun h => absurd ⟨t, le_rfl, by omega, ht⟩ h⟩
    · rw [s2 ht]
      refine ⟨?_, ?_⟩
      · rintro ⟨i, h1, h2, h3⟩
        have : i ≠ t := fun h => ht (h ▸ h3)
        exact i1 ⟨i, by omega, by omega, h3⟩
      · intro h
        exact i2 fun ⟨i, h1, h2, h3⟩ => h ⟨i, by omega, by omega, h3⟩

theorem small_total {E : Env (ZMod q) G} (hE : LengthOk E) {P : Params q} {rnd : ℕ → SmallRnd q}
    {vd : VerifierData (ZMod q) G E.St} {pd : ProverData (ZMod q)} (S : Setup P vd pd)
    (hB : 0 ≤ P.B_smallness) :
    ((∃ i < 100, SmallAccepted E P vd.mer vd.ix vd.Gs pd.compressed rnd i) →
      ∃ r, proveSmallness E P rnd vd pd = .ok r) ∧
    ((¬ ∃ i < 100, SmallAccepted E P vd.mer vd.ix vd.Gs pd.compressed rnd i) →
      proveSmallness E P rnd vd pd = .throw) := by
  have hL := lay_of S.layout
  have hGs := S.gs
  have hlin := S.lin
  obtain ⟨s1, s2⟩ := smallLoop_total hE (rnd := rnd) (mer := vd.mer) S.compressed hB
    (ix := vd.ix) (Gs := vd.Gs) (by rw [hL.y]; rw [hL.w] at hGs; omega) 100 0
  unfold proveSmallness
  rw [if_neg (by simp only [S.compressed]; decide)]
  constructor
  · rintro ⟨i, h1, h2⟩
    obtain ⟨tr, htr⟩ := s1 ⟨i, by omega, by omega, h2⟩
    rw [htr, Res.ok_bind]
    obtain ⟨i, u, b1, b2, b3, b4, b5, b6, b7, b8⟩ := smallLoop_ok _ _ htr
    obtain ⟨hm, hR⟩ := newTernaryE_ok hE (by norm_num) (by norm_num) b4
    obtain ⟨w, c1, c2, c3⟩ := hR.left pd.compressed S.compressed
    rw [c1] at b5
    obtain rfl := Res.ok.inj b5
    have hy : tr.y.length = 64 := by rw [b1]; simp
    unfold vecAdd at b6
    rw [if_neg (by omega)] at b6
    have hz := Res.ok.inj b6
    have hzl : tr.z.length = 64 := by rw [← hz, List.length_zipWith]; omega
    simp only
    refine bind_total (newElement_total hE _ _) ?_
    rintro ⟨ξ, m⟩
    simp only
    rw [power64, Res.ok_bind]
    obtain ⟨out, f1, f2, f3⟩ := onSlot_says (cs := vd.linConstr) (s := 12) (by omega)
      (smallConstraints_spec (ix := vd.ix) (w := vd.ix.w) hR ξ hzl
        (by rw [hL.w]; omega) (by rw [hL.y, hL.w]) (by simp; omega))
    rw [f1, Res.ok_bind]
    exact ⟨_, rfl⟩
  · intro h
    rw [s2 (fun ⟨i, h1, h2, h3⟩ => h ⟨i, by omega, h3⟩), throw_bind]

end
end Verif
